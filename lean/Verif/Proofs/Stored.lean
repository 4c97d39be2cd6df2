import Verif.Proofs.Inject
import Verif.ReachDecomp

/-!
# Decompositions with injected connections

What is stored when connections have been injected, and when recording a connection fails.
-/

namespace Verif

set_option linter.unusedSectionVars false

/-! ### Chains at the top -/

/-- The connections, from the top downwards, which are above each other such that the highest one ends at the separatrix `l`. -/
def IsChainTop : Label → List Conn → Prop
  | _, [] => True
  | l, c :: cs => c.target = ⟨l, false⟩ ∧ IsChainTop c.source.label cs

/-- Where these start. -/
def chainTopEnd : Label → List Conn → Label
  | l, [] => l
  | _, c :: cs => chainTopEnd c.source.label cs

theorem Decomp.chainTop_ok : ∀ (cs : List Conn) (l : Label), IsChainTop l cs → Decomp.chainTop cs ⟨l, false⟩ = .ok ⟨chainTopEnd l cs, false⟩
  | [], _, _ => rfl
  | c :: cs, l, ⟨h1, h2⟩ => by
    simp only [Decomp.chainTop, assertM, h1, decide_true, if_true, bind, Except.bind]
    exact Decomp.chainTop_ok cs _ h2

/-- The loop returns or an assertion fails; then it is not a chain. -/
theorem Decomp.chainTop_cases : ∀ (cs : List Conn) (l : Label), (∃ l', Decomp.chainTop cs ⟨l, false⟩ = .ok ⟨l', false⟩) ∨
    (Decomp.chainTop cs ⟨l, false⟩ = .error .assertFailed ∧ ¬ IsChainTop l cs)
  | [], l => .inl ⟨l, rfl⟩
  | c :: cs, l => by
    simp only [Decomp.chainTop, assertM]
    by_cases h : (⟨l, false⟩ : Sep) = c.target
    · rw [if_pos (by simpa using h)]
      rcases Decomp.chainTop_cases cs c.source.label with h' | h'
      · exact .inl h'
      · exact .inr ⟨h'.1, fun g => h'.2 g.2⟩
    · rw [if_neg (by simpa using h)]
      exact .inr ⟨rfl, fun g => h g.1.symm⟩

theorem Decomp.chainBottom_cases : ∀ (cs : List Conn) (l : Label), (∃ l', Decomp.chainBottom cs ⟨l, true⟩ = .ok ⟨l', true⟩) ∨
    (Decomp.chainBottom cs ⟨l, true⟩ = .error .assertFailed ∧ ¬ IsChain l cs)
  | [], l => .inl ⟨l, rfl⟩
  | c :: cs, l => by
    simp only [Decomp.chainBottom, assertM]
    by_cases h : (⟨l, true⟩ : Sep) = c.source
    · rw [if_pos (by simpa using h)]
      rcases Decomp.chainBottom_cases cs c.target.label with h' | h'
      · exact .inl h'
      · exact .inr ⟨h'.1, fun g => h'.2 g.2⟩
    · rw [if_neg (by simpa using h)]
      exact .inr ⟨rfl, fun g => h g.1.symm⟩

/-- Read from the bottom upwards, the connections also form a chain. -/
theorem IsChainTop.chain : ∀ (cs : List Conn) (l : Label) (rest : List Conn), IsChainTop l cs → (∀ c ∈ cs, c.source.parallel = true) → IsChain l rest →
    IsChain (chainTopEnd l cs) (cs.reverse ++ rest)
  | [], _, _, _, _, h => h
  | c :: cs, l, rest, ⟨h1, h2⟩, hp, h => by
    rw [List.reverse_cons, List.append_assoc]
    refine IsChainTop.chain cs c.source.label (c :: rest) h2 (fun x hx => hp x (List.mem_cons_of_mem _ hx)) ⟨?_, ?_⟩
    · rw [← hp c List.mem_cons_self]
    · rw [h1]; exact h

/-! ### The last intervals -/

theorem mem_dropLast {l : List Label} (h : l.Nodup) {a : Label} : a ∈ l.dropLast ↔ a ∈ l ∧ l.getLast? ≠ some a := by
  rcases List.eq_nil_or_concat l with rfl | ⟨l', b, rfl⟩
  · simp
  · rw [List.concat_eq_append] at h ⊢
    rw [List.nodup_append] at h
    simp only [List.dropLast_concat, List.mem_append, List.mem_singleton, List.getLast?_append, List.getLast?_singleton, Option.some_or, ne_eq,
      Option.some.injEq]
    constructor
    · intro ha
      exact ⟨.inl ha, fun e => h.2.2 a ha b (by simp) e.symm⟩
    · rintro ⟨ha | ha, hb⟩
      · exact ha
      · exact absurd ha.symm hb

variable {P : Type} [CommRing P] [LinearOrder P] [IsStrictOrderedRing P]

theorem RauzyTop.last {A B : AIET P} (h : RauzyTop A B) : B.top.getLast? = A.top.getLast? ∧ B.bottom.getLast? = A.bottom.getLast? := by
  cases h with
  | mk a b t l₁ l₂ len h =>
    refine ⟨rfl, ?_⟩
    show (l₁ ++ b :: a :: l₂).getLast? = (b :: (l₁ ++ a :: l₂)).getLast?
    rw [← List.cons_append, List.getLast?_append_cons, List.getLast?_append_cons, List.getLast?_cons_cons]

theorem Steps.last {A B : AIET P} (h : Steps A B) : B.top.getLast? = A.top.getLast? ∧ B.bottom.getLast? = A.bottom.getLast? := by
  induction h with
  | refl => exact ⟨rfl, rfl⟩
  | tail _ h ih =>
    rcases h with h | h
    · exact ⟨h.last.1.trans ih.1, h.last.2.trans ih.2⟩
    · have := h.last
      exact ⟨this.2.trans ih.1, this.1.trans ih.2⟩

theorem Steps.dropLast {A B : AIET P} (hA : A.Valid) (h : Steps A B) :
    (∀ a, a ∈ B.top.dropLast ↔ a ∈ A.top.dropLast) ∧ ∀ a, a ∈ B.bottom.dropLast ↔ a ∈ A.bottom.dropLast := by
  have hB := Steps.valid hA h
  have hp := Steps.top_perm h
  constructor
  · intro a
    rw [mem_dropLast hB.nodup, mem_dropLast hA.nodup, hp.mem_iff, h.last.1]
  · intro a
    rw [mem_dropLast (l := B.bottom) hB.inv.nodup, mem_dropLast (l := A.bottom) hA.inv.nodup]
    rw [hB.perm.mem_iff, hA.perm.mem_iff, hp.mem_iff, h.last.2]

/-! ### What is stored -/

/-- The connections stored on the right of a label. -/
def rightOf (c : Conns) : List Conn := c.topRight ++ c.bottomRight

namespace Decomp

theorem mergedConns_right {m : ConnMap} {b f t : Label} {conn : Conn} (hbt : b ≠ t) (hft : f ≠ t) {K : List Label} (hK : K.Nodup) (hb : b ∈ K) (ht : t ∈ K) :
    (K.flatMap (fun l => rightOf ((mergedConns m b f t conn).val l))).Perm ([conn] ++ K.flatMap (fun l => rightOf (m.val l))) := by
  have hv := mergedConns_val (m := m) (conn := conn) hbt hft
  rw [List.perm_iff_count]
  intro z
  have hb' : b ∈ K.erase t := (List.mem_erase_of_ne hbt).mpr hb
  have e1 := (flatMap_erase ht (fun l => rightOf (m.val l))).count_eq z
  have e2 := (flatMap_erase ht (fun l => rightOf ((mergedConns m b f t conn).val l))).count_eq z
  have e3 := (flatMap_erase hb' (fun l => rightOf (m.val l))).count_eq z
  have e4 := (flatMap_erase hb' (fun l => rightOf ((mergedConns m b f t conn).val l))).count_eq z
  have v1 : (rightOf ((mergedConns m b f t conn).val t)) = [] := by rw [hv, if_pos rfl]; rfl
  rw [v1] at e2
  have e5 : ((K.erase t).erase b).flatMap (fun l => rightOf ((mergedConns m b f t conn).val l)) =
      ((K.erase t).erase b).flatMap (fun l => rightOf (m.val l)) := flatMap_congr' (fun y hy => by
    rw [hv, if_neg (by rintro rfl; exact hK.not_mem_erase (List.mem_of_mem_erase hy)), if_neg (by rintro rfl; exact (hK.erase t).not_mem_erase hy)]
    split
    · next h => subst h; rfl
    · rfl)
  rw [e5] at e4
  have v2 : (rightOf ((mergedConns m b f t conn).val b)).count z =
      [conn].count z + (rightOf (m.val b)).count z + (rightOf (m.val t)).count z := by
    rw [hv, if_neg hbt, if_pos rfl]
    simp only [rightOf, List.count_append]
    omega
  simp only [List.count_append, v2, List.count_nil] at e1 e2 e3 e4 ⊢
  omega

theorem mergedConns_left {m : ConnMap} {b f t : Label} {conn : Conn} (hbt : b ≠ t) (hft : f ≠ t) {K : List Label} (hK : K.Nodup) (hb : b ∈ K) (ht : t ∈ K)
    (hf : f ∈ K) :
    (K.flatMap (fun l => leftOf ((mergedConns m b f t conn).val l))).Perm ([conn.neg] ++ K.flatMap (fun l => leftOf (m.val l))) := by
  obtain ⟨-, -, -, -, -, -, -, -, -, -, h⟩ := mergedConns_facts (m := ⟨m.keys, fun x => { m.val x with topRight := [] }⟩) (conn := conn) hbt hft (fun _ => rfl)
  have := h K hK hb ht hf
  have e : K.flatMap (fun l => leftOf ((mergedConns ⟨m.keys, fun x => { m.val x with topRight := [] }⟩ b f t conn).val l)) =
      K.flatMap (fun l => leftOf ((mergedConns m b f t conn).val l)) := flatMap_congr' (fun l _ => by
    rw [mergedConns_val hbt hft, mergedConns_val hbt hft]
    split
    · rfl
    · split
      · rfl
      · split <;> rfl)
  rw [e] at this
  exact this

theorem separatedConns_right {m : ConnMap} {b y : Label} {conn : Conn} (hby : b ≠ y) {K : List Label} (hK : K.Nodup) (hb : b ∈ K) :
    (K.flatMap (fun l => rightOf ((separatedConns m b y conn).val l))).Perm ([conn] ++ K.flatMap (fun l => rightOf (m.val l))) := by
  obtain ⟨-, h1, h2, h3⟩ := separatedConns_facts (m := m) (conn := conn) hby
  rw [List.perm_iff_count]
  intro z
  have := flatMap_update hK hb (f := fun l => rightOf (m.val l)) (g := fun l => rightOf ((separatedConns m b y conn).val l)) (fun x hx => by
    by_cases hy : x = y
    · subst hy; simp only [h2]; rfl
    · simp only [h3 x hx hy]) z
  simp only [h1, rightOf, List.count_append] at this ⊢
  omega

theorem separatedConns_left {m : ConnMap} {b y : Label} {conn : Conn} (hby : b ≠ y) {K : List Label} (hK : K.Nodup) (hy : y ∈ K) :
    (K.flatMap (fun l => leftOf ((separatedConns m b y conn).val l))).Perm ([conn.neg] ++ K.flatMap (fun l => leftOf (m.val l))) := by
  obtain ⟨-, h1, h2, h3⟩ := separatedConns_facts (m := m) (conn := conn) hby
  rw [List.perm_iff_count]
  intro z
  have := flatMap_update hK hy (f := fun l => leftOf (m.val l)) (g := fun l => leftOf ((separatedConns m b y conn).val l)) (fun x hx => by
    by_cases hb : x = b
    · subst hb; simp only [h1]; rfl
    · simp only [h3 x hb hx]) z
  simp only [h2, leftOf, List.count_append] at this ⊢
  omega

end Decomp

variable {σ T : Type}

/-- The connections in `Rr` are stored on the right of the half edges and the ones in `Rl` on the left. -/
structure Decomp.Stored (D : Decomp σ T) (Rr Rl : List Conn) : Prop where
  nodup : D.lengths.conns.keys.Nodup
  gone : ∀ l, (∀ x ∈ D.comps, l ∉ x.iet.top) → D.lengths.conns.val l = {}
  right : (D.lengths.conns.keys.flatMap (fun l => rightOf (D.lengths.conns.val l))).Perm Rr
  left : (D.lengths.conns.keys.flatMap (fun l => leftOf (D.lengths.conns.val l))).Perm Rl
  parallel : ∀ l, ∀ x ∈ rightOf (D.lengths.conns.val l), x.source.parallel = true ∧ x.target.parallel = false

/-- The connections to the right of the half edges, except for the last ones, are above each other. -/
structure Decomp.Chained (D : Decomp σ T) : Prop where
  bottom : ∀ x ∈ D.comps, ∀ l ∈ x.iet.bottom.dropLast, IsChain l (D.lengths.conns.val l).bottomRight
  top : ∀ x ∈ D.comps, ∀ l ∈ x.iet.top.dropLast, IsChainTop l (D.lengths.conns.val l).topRight.reverse


section

variable [CommRing T] [LinearOrder T] [IsStrictOrderedRing T] {O : LengthsOps σ T} {ε : Type} {d : ℕ} {c : T →+ (Fin d → ℚ)}
  {H : LawfulLengths O c ε} {ι : T →+ P} {A₀ : AIET T} {R : List Conn} {au : Bool → Prop}

theorem LeftMoved.rightOf {S : Label → Prop} {m m' : ConnMap} (h : LeftMoved S m m') (l : Label) : rightOf (m'.val l) = rightOf (m.val l) := by
  simp only [Verif.rightOf, h.topRight, h.bottomRight]

/-- A step with a limit returns and records the connection that it reports, or an assertion fails because the connections are not above each other. -/
theorem Decomp.Stored.bounded {L : PPL} (hL : L.Lawful) {D D₀ : Decomp σ T} (ha : D.Alike D₀) (h : D₀.Inv H ι A₀ R au) {i : ℕ} {x : Comp T}
    (hi : D.comps[i]? = some x) {limit : ℤ} (hlimit : limit ≠ -1) {Rr Rl : List Conn} (hS : D.Stored Rr Rl) :
    (∃ st D', D.decompositionStepBounded L O limit i = .ok (st, D') ∧
      D'.Stored (Rr ++ st.connection.toList) (Rl ++ st.connection.toList.map Conn.neg) ∧ (D.Chained → D'.Chained)) ∨
    (D.decompositionStepBounded L O limit i = .error .assertFailed ∧ ¬ D.Chained) := by
  have hi₀ : D₀.comps[i]? = some x := by rw [← ha.comps]; exact hi
  have hx := List.mem_of_getElem? hi
  have hx₀ := List.mem_of_getElem? hi₀
  have hflags := h.flags x hx₀
  have hsw := h.swapped x hx₀
  have hk : ¬ (x.cylinder = some true ∧ x.keane = some true) := fun h' => hflags.keane h'.2
  set s : LWC σ := { D.lengths with others := D.others i } with hs
  have hg : (LWC.lawful H).Good x.iet s := LWC.good_congr (h.good x hx₀) ha.2.1 ha.2.2 ha.2.3
  set E : IET T := { x.iet with safCache := some (safList c ((LWC.lawful H).unswapped x.iet s)) } with hE
  have hgE : (LWC.lawful H).Good E s := hg.setCache
  set cost : Option ℤ := if ∀ v ∈ safList c (H.abs x.iet s.inner), v = 0 then none else some 64 with hcost
  have hcost' : ∀ v, cost = some v → 0 < v := by
    intro v hv
    rw [hcost] at hv
    split at hv
    · cases hv
    · cases hv; norm_num
  obtain ⟨step, E', s', h1, h2, h3, h4, h5, h6⟩ := chunks_spec H hL cost hcost' (limit.toNat + 1) limit E s hlimit (Nat.lt_succ_self _) hgE
  have hsw' : E'.swapped = false := h6.trans hsw
  have hset : (D.comps.set i ({ x with iet := E' } : Comp T))[i]? = some { x with iet := E' } := by
    rw [List.getElem?_set_self (List.getElem?_eq_some_iff.mp hi).1]
  have hrun : D.decompositionStepBounded L O limit i =
      Decomp.conclude { comps := D.comps.set i { x with iet := E' }, lengths := s' } i step := by
    unfold Decomp.decompositionStepBounded
    simp only [Decomp.comp_ok hi, assertM, bind, Except.bind]
    rw [if_pos (decide_eq_true hk)]
    simp only
    rw [boshernitzanCost_spec H hg]
    simp only
    rw [h1]
    rfl
  have hcompI : ∀ l : LWC σ, Decomp.comp { comps := D.comps.set i ({ x with iet := E' } : Comp T), lengths := l } i = .ok { x with iet := E' } :=
    fun l => Decomp.comp_ok hset
  have hdis : ∀ j z, j ≠ i → D.comps[j]? = some z → ∀ a ∈ z.iet.top, a ∉ x.iet.top := fun j z hj hz =>
    pairwise_getElem_ne (fun _ _ h a ha ha' => h a ha' ha) h.disjoint (by rw [← ha.comps]; exact hz) hi₀ hj
  have hvz : ∀ z ∈ D.comps, z.iet.bottom.Perm z.iet.top := fun z hz => (h.good z (by rw [← ha.comps]; exact hz)).ok.valid.perm
  -- the label of a removed interval
  have hgone : ∀ (x' : Comp T) (l : Label), (∀ z ∈ D.comps.set i x', l ∉ z.iet.top) → l ∉ x.iet.top → ∀ z ∈ D.comps, l ∉ z.iet.top := by
    intro x' l hl hlx z hz
    obtain ⟨j, hj⟩ := List.getElem?_of_mem hz
    by_cases hij : j = i
    · subst hij
      rw [hi] at hj
      cases hj
      exact hlx
    · exact hl z (List.mem_of_getElem? (i := j) (by rw [List.getElem?_set_ne (Ne.symm hij)]; exact hj))
  have hmemset : ∀ x' : Comp T, x' ∈ D.comps.set i x' := fun x' => List.mem_of_getElem? (i := i) (by
    rw [List.getElem?_set_self (List.getElem?_eq_some_iff.mp hi).1])
  -- the cases in which no connections are recorded
  have simple : ∀ (x' : Comp T) (E₁ : IET T), x'.iet = E' → Moves (LWC.lawful H) (E, s) (E₁, s') → E'.top = E₁.top → E'.bottom = E₁.bottom →
      Decomp.Stored ⟨D.comps.set i x', s'⟩ Rr Rl ∧ (D.Chained → Decomp.Chained ⟨D.comps.set i x', s'⟩) := by
    intro x' E₁ hx' hm ht hb
    have hlm : LeftMoved (fun a => a ∈ x.iet.top) D.lengths.conns s'.conns := hm.left.2
    have hperm : E₁.top.Perm x.iet.top := Moves.top_perm hm
    obtain ⟨dt, db⟩ := Steps.dropLast hgE.ok.valid hm.steps
    refine ⟨⟨?_, ?_, ?_, ?_, ?_⟩, fun hC => ⟨?_, ?_⟩⟩
    · simp only [hlm.keys]; exact hS.nodup
    · intro l hl
      have hlx : l ∉ x.iet.top := fun h => hl x' (hmemset x') (by rw [hx', ht]; exact hperm.mem_iff.mpr h)
      simp only [hlm.out l hlx]
      exact hS.gone l (hgone x' l hl hlx)
    · simp only [hlm.rightOf, hlm.keys]; exact hS.right
    · refine List.Perm.trans ?_ hS.left
      simp only [hlm.keys]
      exact hlm.perm _ hS.nodup (fun a h => (hg.ok.dom a h).2)
    · intro l; simp only [hlm.rightOf]; exact hS.parallel l
    · intro z hz l hl
      simp only [hlm.bottomRight]
      rcases mem_set_iff_ne hz with rfl | ⟨j, _, hj⟩
      · rw [hx', hb] at hl
        exact hC.bottom x hx l ((db l).mp hl)
      · exact hC.bottom z (List.mem_of_getElem? hj) l hl
    · intro z hz l hl
      simp only [hlm.topRight]
      rcases mem_set_iff_ne hz with rfl | ⟨j, _, hj⟩
      · rw [hx', ht] at hl
        exact hC.top x hx l ((dt l).mp hl)
      · exact hC.top z (List.mem_of_getElem? hj) l hl
  rw [hrun]
  cases h2 with
  | cylinder hm hlen =>
    have hcon : Decomp.conclude { comps := D.comps.set i { x with iet := E' }, lengths := s' } i ⟨.cylinder, none, none⟩ =
        .ok ({ result := .cylinder }, ⟨D.comps.set i ⟨E', some true, some false, some false⟩, s'⟩) := by
      simp only [Decomp.conclude, hcompI, bind, Except.bind, pure, Except.pure, Decomp.setComp, List.set_set]
    refine .inl ⟨_, _, hcon, ?_⟩
    simpa using simple _ E' rfl hm rfl rfl
  | auto hm hloop hsaf hlen =>
    have hcon : Decomp.conclude { comps := D.comps.set i { x with iet := E' }, lengths := s' } i
        ⟨.withoutPeriodicTrajectoryAutoSimilar, none, none⟩ =
        .ok ({ result := .withoutPeriodicTrajectoryAutoSimilar }, ⟨D.comps.set i ⟨E', some false, some true, x.keane⟩, s'⟩) := by
      simp only [Decomp.conclude, hcompI, bind, Except.bind, pure, Except.pure, Decomp.setComp, List.set_set]
    refine .inl ⟨_, _, hcon, ?_⟩
    simpa using simple _ E' rfl hm rfl rfl
  | @finish E₁ _ _ _ hm hf =>
    have hv₁ : (H.abs E₁ s'.inner).Valid := (hm.ok hgE.ok).valid
    have hlm : LeftMoved (fun a => a ∈ x.iet.top) D.lengths.conns s'.conns := hm.left.2
    have hperm : E₁.top.Perm x.iet.top := Moves.top_perm hm
    obtain ⟨dt, db⟩ := Steps.dropLast hgE.ok.valid hm.steps
    have hkey : ∀ a ∈ x.iet.top, a ∈ s'.conns.keys := fun a ha => by rw [hlm.keys]; exact (hg.ok.dom a ha).2
    have hnd : s'.conns.keys.Nodup := by rw [hlm.keys]; exact hS.nodup
    have hright : (s'.conns.keys.flatMap (fun l => rightOf (s'.conns.val l))).Perm Rr := by
      simp only [hlm.rightOf, hlm.keys]; exact hS.right
    have hleft : (s'.conns.keys.flatMap (fun l => leftOf (s'.conns.val l))).Perm Rl := by
      refine List.Perm.trans ?_ hS.left
      simp only [hlm.keys]
      exact hlm.perm _ hS.nodup (fun a h => (hg.ok.dom a h).2)
    have hpar : ∀ l, ∀ z ∈ rightOf (s'.conns.val l), z.source.parallel = true ∧ z.target.parallel = false := by
      intro l; simp only [hlm.rightOf]; exact hS.parallel l
    cases hf with
    | limit ht hb _ _ _ =>
      have hcon : Decomp.conclude { comps := D.comps.set i { x with iet := E' }, lengths := s' } i ⟨.limitReached, none, none⟩ =
          .ok ({ result := .limitReached }, ⟨D.comps.set i { x with iet := E' }, s'⟩) := by
        simp only [Decomp.conclude, hcompI, bind, Except.bind, pure, Except.pure]
      refine .inl ⟨_, _, hcon, ?_⟩
      simpa using simple _ E₁ rfl hm ht hb
    | boshernitzan ht hb _ hheads hrel _ =>
      have hcon : Decomp.conclude { comps := D.comps.set i { x with iet := E' }, lengths := s' } i
          ⟨.withoutPeriodicTrajectoryBoshernitzan, none, none⟩ =
          .ok ({ result := .withoutPeriodicTrajectoryBoshernitzan }, ⟨D.comps.set i ⟨E', some false, some true, x.keane⟩, s'⟩) := by
        simp only [Decomp.conclude, hcompI, bind, Except.bind, pure, Except.pure, Decomp.setComp, List.set_set]
      refine .inl ⟨_, _, hcon, ?_⟩
      simpa using simple _ E₁ rfl hm ht hb
    | @separating _ R' k b t hcut hgR hRsw hb ht =>
      obtain ⟨y, hy⟩ : ∃ y, R'.bottom.head? = some y := by obtain ⟨_, b, _, hb⟩ := hgR.ok.valid.heads; exact ⟨b, hb⟩
      obtain ⟨z, hz⟩ : ∃ z, R'.top.head? = some z := by obtain ⟨b, _, hb, _⟩ := hgR.ok.valid.heads; exact ⟨b, hb⟩
      have hcut' : IsCut (H.abs E₁ s'.inner) (H.abs E' s'.inner) (H.abs R' s'.inner) k := hcut
      obtain ⟨f1, f2, _, _, f5, f6, f7⟩ := hcut'.facts hv₁
      simp only [LawfulLengths.abs] at f1 f2 f5 f6 f7
      have hbE := List.mem_of_getLast? hb
      have htE := List.mem_of_getLast? ht
      have hyR := List.mem_of_head? hy
      have hby : b ≠ y := by
        rintro rfl
        exact f5 b (f6.mem_iff.mp hbE) (f7.mem_iff.mp hyR)
      have hnt : R'.top ≠ [] := hgR.ok.valid.ne_nil
      have hnb : R'.bottom ≠ [] := hgR.ok.valid.inv.ne_nil
      have eb : E₁.bottom.dropLast = E'.bottom ++ R'.bottom.dropLast := by rw [f2, List.dropLast_append_of_ne_nil hnb]
      have et : E₁.top.dropLast = E'.top ++ R'.top.dropLast := by rw [f1, List.dropLast_append_of_ne_nil hnt]
      have hbx : b ∈ x.iet.bottom.dropLast := (db b).mp (by show b ∈ E₁.bottom.dropLast; rw [eb]; exact List.mem_append_left _ hbE)
      have htx : t ∈ x.iet.top.dropLast := (dt t).mp (by show t ∈ E₁.top.dropLast; rw [et]; exact List.mem_append_left _ htE)
      have hbt' : b ∈ x.iet.top := (hvz x hx).mem_iff.mp (List.mem_of_mem_dropLast hbx)
      have htt' : t ∈ x.iet.top := List.mem_of_mem_dropLast htx
      have hyt' : y ∈ x.iet.top := hperm.mem_iff.mp (by rw [f1]; exact List.mem_append_right _ (f7.mem_iff.mp hyR))
      have hcon' : Decomp.conclude { comps := D.comps.set i { x with iet := E' }, lengths := s' } i
          ⟨.separatingConnection, some (b, t), some R'⟩ =
          Decomp.separating { comps := D.comps.set i { x with iet := E' }, lengths := s' } i b t R' := by
        simp only [Decomp.conclude, hcompI, bind, Except.bind]
      rw [hcon']
      set D₁ : Decomp σ T := { comps := D.comps.set i { x with iet := E' }, lengths := s' } with hD₁
      have hmb : D₁.makeAtBottom b = Decomp.chainBottom (s'.conns.val b).bottomRight ⟨b, true⟩ := by
        simp only [Decomp.makeAtBottom, Decomp.connections_ok (D := D₁) (hkey b hbt'), bind, Except.bind]; rfl
      have hmt : D₁.makeAtTop t = Decomp.chainTop (s'.conns.val t).topRight.reverse ⟨t, false⟩ := by
        simp only [Decomp.makeAtTop, Decomp.connections_ok (D := D₁) (hkey t htt'), bind, Except.bind]; rfl
      have hwalk := Decomp.walkClockwise_ok (D := D₁) hset hsw'
        (fun a ha => (h3.ok.dom a ha).2) (fun a ha => (h3.ok.dom a (h3.ok.valid.perm.mem_iff.mp ha)).2) h3.ok.valid.nodup
        h3.ok.valid.inv.nodup hb ht
      have hbc : Comp.bottomContour ({ x with iet := E' } : Comp T) = E'.bottom := by simp [Comp.bottomContour, hsw']
      have htc : Comp.topContour ({ x with iet := E' } : Comp T) = E'.top := by simp [Comp.topContour, hsw']
      rcases Decomp.chainBottom_cases (s'.conns.val b).bottomRight b with ⟨b', hcb⟩ | ⟨hcb, hncb⟩
      · rcases Decomp.chainTop_cases (s'.conns.val t).topRight.reverse t with ⟨t', hct⟩ | ⟨hct, hnct⟩
        · left
          have hcon := Decomp.separating_ok' (D := D₁) hset hsw'
            (fun a ha => (h3.ok.dom a ha).2) (fun a ha => (h3.ok.dom a (h3.ok.valid.perm.mem_iff.mp ha)).2) h3.ok.valid.nodup
            h3.ok.valid.inv.nodup hb ht (hmb.trans hcb) (hmt.trans hct) hRsw hy
            (hgR.ok.dom y (hgR.ok.valid.perm.mem_iff.mp hyR)).2 hz (hgR.ok.dom z (List.mem_of_head? hz)).2
          refine ⟨_, _, hcon, ?_⟩
          set conn : Conn := ⟨⟨b', true⟩, ⟨t', false⟩⟩ with hconn
          obtain ⟨-, k2, k3, k4⟩ := Decomp.separatedConns_facts (m := s'.conns) (b := b) (y := y) (conn := conn) hby
          have kt : ∀ l, ((Decomp.separatedConns s'.conns b y conn).val l).topRight = (D.lengths.conns.val l).topRight := by
            intro l
            rw [← hlm.topRight]
            by_cases e1 : l = b
            · subst e1; rw [k2]
            · by_cases e2 : l = y
              · subst e2; rw [k3]
              · rw [k4 l e1 e2]
          have kb : ∀ l, l ≠ b → ((Decomp.separatedConns s'.conns b y conn).val l).bottomRight = (D.lengths.conns.val l).bottomRight := by
            intro l e1
            rw [← hlm.bottomRight]
            by_cases e2 : l = y
            · subst e2; rw [k3]
            · rw [k4 l e1 e2]
          have hother : ∀ j w, j ≠ i → D.comps[j]? = some w → ∀ l ∈ w.iet.bottom, l ≠ b := by
            rintro j w hj hw l hl rfl
            exact hdis j w hj hw l ((hvz w (List.mem_of_getElem? hw)).mem_iff.mp hl) hbt'
          refine ⟨⟨hnd, ?_, ?_, ?_, ?_⟩, fun hC => ⟨?_, ?_⟩⟩
          · intro l hl
            have hlE : l ∉ E'.top := hl _ (List.mem_append_left _ (hmemset _))
            have hlR : l ∉ R'.top := hl { iet := R' } (List.mem_append_right _ (by simp))
            have hlx : l ∉ x.iet.top := fun h => by
              have := hperm.mem_iff.mpr h
              rw [f1, List.mem_append] at this
              exact this.elim hlE hlR
            have e1 : l ≠ b := by rintro rfl; exact hlx hbt'
            have e2 : l ≠ y := by rintro rfl; exact hlx hyt'
            show (Decomp.separatedConns s'.conns b y conn).val l = {}
            rw [k4 l e1 e2, hlm.out l hlx]
            exact hS.gone l (hgone _ l (fun w hw => hl w (List.mem_append_left _ hw)) hlx)
          · refine (Decomp.separatedConns_right hby hnd (hkey b hbt')).trans ?_
            exact (List.perm_append_comm).trans (hright.append_right _)
          · refine (Decomp.separatedConns_left hby hnd (hkey y hyt')).trans ?_
            exact (List.perm_append_comm).trans (hleft.append_right _)
          · intro l w hw
            replace hw : w ∈ rightOf ((Decomp.separatedConns s'.conns b y conn).val l) := hw
            by_cases e1 : l = b
            · subst e1
              simp only [k2, rightOf, List.mem_append, List.mem_singleton] at hw
              rcases hw with hw | hw | rfl
              · exact hpar l w (List.mem_append_left _ hw)
              · exact hpar l w (List.mem_append_right _ hw)
              · exact ⟨rfl, rfl⟩
            · refine hpar l w ?_
              simp only [rightOf] at hw ⊢
              rw [hlm.topRight, hlm.bottomRight, ← kt l, ← kb l e1]
              exact hw
          · intro w hw l hl
            show IsChain l ((Decomp.separatedConns s'.conns b y conn).val l).bottomRight
            rw [List.mem_append] at hw
            rcases hw with hw | hw
            · rcases mem_set_iff_ne hw with rfl | ⟨j, hj, hjw⟩
              · have e1 : l ≠ b := by
                  rintro rfl
                  exact ((mem_dropLast h3.ok.valid.inv.nodup).mp hl).2 hb
                rw [kb l e1]
                exact hC.bottom x hx l ((db l).mp (by show l ∈ E₁.bottom.dropLast; rw [eb]; exact List.mem_append_left _ (List.mem_of_mem_dropLast hl)))
              · rw [kb l (hother j w hj hjw l (List.mem_of_mem_dropLast hl))]
                exact hC.bottom w (List.mem_of_getElem? hjw) l hl
            · rw [List.mem_singleton] at hw
              subst hw
              have e1 : l ≠ b := by
                rintro rfl
                exact f5 l (f6.mem_iff.mp hbE) (f7.mem_iff.mp (List.mem_of_mem_dropLast hl))
              rw [kb l e1]
              exact hC.bottom x hx l ((db l).mp (by show l ∈ E₁.bottom.dropLast; rw [eb]; exact List.mem_append_right _ hl))
          · intro w hw l hl
            show IsChainTop l ((Decomp.separatedConns s'.conns b y conn).val l).topRight.reverse
            rw [kt l]
            rw [List.mem_append] at hw
            rcases hw with hw | hw
            · rcases mem_set_iff_ne hw with rfl | ⟨j, hj, hjw⟩
              · exact hC.top x hx l ((dt l).mp (by show l ∈ E₁.top.dropLast; rw [et]; exact List.mem_append_left _ (List.mem_of_mem_dropLast hl)))
              · exact hC.top w (List.mem_of_getElem? hjw) l hl
            · rw [List.mem_singleton] at hw
              subst hw
              exact hC.top x hx l ((dt l).mp (by show l ∈ E₁.top.dropLast; rw [et]; exact List.mem_append_right _ hl))
        · right
          refine ⟨?_, fun hC => hnct (by rw [hlm.topRight]; exact hC.top x hx t htx)⟩
          simp only [Decomp.separating, Decomp.comp_ok (D := D₁) hset, hbc, htc, Decomp.lastM_ok hb, Decomp.lastM_ok ht, hwalk, bind, Except.bind,
            hmb, hcb, hmt, hct]
      · right
        refine ⟨?_, fun hC => hncb (by rw [hlm.bottomRight]; exact hC.bottom x hx b hbx)⟩
        simp only [Decomp.separating, Decomp.comp_ok (D := D₁) hset, hbc, htc, Decomp.lastM_ok hb, Decomp.lastM_ok ht, hwalk, bind, Except.bind,
          hmb, hcb]
    | @nonSeparating _ b t l hirr htop hbot hbt hlen hmerge =>
      obtain ⟨f, g, hf, hg'⟩ := h3.ok.valid.heads
      simp only [LawfulLengths.abs] at hf hg'
      have hokE₁ := hm.ok hgE.ok
      have hnd₁ := hv₁.nodup
      simp only [LawfulLengths.abs, htop, List.nodup_cons] at hnd₁
      have hft : f ≠ t := by rintro rfl; exact hnd₁.1 (List.mem_of_head? hf)
      have hne : E'.top ≠ [] := h3.ok.valid.ne_nil
      obtain ⟨l₁, l₂, rfl, hE'b⟩ : ∃ l₁ l₂, l = l₁ ++ t :: l₂ ∧ E'.bottom = l₁ ++ b :: l₂ := by
        have hmerge' : MergeTop (H.abs E₁ s'.inner) (H.abs E' s'.inner) := hmerge
        simp only [LawfulLengths.abs, htop, hbot] at hmerge'
        generalize E'.bottom = eb at hmerge' ⊢
        generalize E'.top = et at hmerge'
        cases hmerge' with
        | mk _ _ _ l₁ l₂ _ _ => exact ⟨l₁, l₂, rfl, rfl⟩
      have hnb₁ := hv₁.inv.nodup
      simp only [LawfulLengths.abs, AIET.inv, hbot] at hnb₁
      have htx : t ∈ x.iet.top.dropLast := (dt t).mp (by show t ∈ E₁.top.dropLast; rw [htop, List.dropLast_cons_of_ne_nil hne]; simp)
      have hbx : b ∈ x.iet.bottom.dropLast := (db b).mp (by
        show b ∈ E₁.bottom.dropLast
        rw [hbot, List.dropLast_cons_of_ne_nil (by simp)]; simp)
      have htt' : t ∈ x.iet.top := List.mem_of_mem_dropLast htx
      have hbt' : b ∈ x.iet.top := (hvz x hx).mem_iff.mp (List.mem_of_mem_dropLast hbx)
      have hft' : f ∈ x.iet.top := hperm.mem_iff.mp (by rw [htop]; exact List.mem_cons_of_mem _ (List.mem_of_head? hf))
      have hbk := hkey b hbt'
      have htk := hkey t htt'
      have hfk := hkey f hft'
      have hgk : g ∈ s'.conns.keys := (h3.ok.dom g (h3.ok.valid.perm.mem_iff.mp (List.mem_of_head? hg'))).2
      have hcon' : Decomp.conclude { comps := D.comps.set i { x with iet := E' }, lengths := s' } i
          ⟨.nonSeparatingConnection, some (b, t), none⟩ =
          Decomp.nonSeparating { comps := D.comps.set i { x with iet := E' }, lengths := s' } i b t := by
        simp only [Decomp.conclude, hcompI, bind, Except.bind]
      rw [hcon']
      set D₁ : Decomp σ T := { comps := D.comps.set i { x with iet := E' }, lengths := s' } with hD₁
      have hmb : D₁.makeAtBottom b = Decomp.chainBottom (s'.conns.val b).bottomRight ⟨b, true⟩ := by
        simp only [Decomp.makeAtBottom, Decomp.connections_ok (D := D₁) hbk, bind, Except.bind]; rfl
      have hmt : D₁.makeAtTop t = Decomp.chainTop (s'.conns.val t).topRight.reverse ⟨t, false⟩ := by
        simp only [Decomp.makeAtTop, Decomp.connections_ok (D := D₁) htk, bind, Except.bind]; rfl
      rcases Decomp.chainBottom_cases (s'.conns.val b).bottomRight b with ⟨b', hcb⟩ | ⟨hcb, hncb⟩
      · rcases Decomp.chainTop_cases (s'.conns.val t).topRight.reverse t with ⟨t', hct⟩ | ⟨hct, hnct⟩
        · left
          have hcon := Decomp.nonSeparating_ok' (D := D₁) hset hsw' hbk htk hfk hgk hf hg' hbt hft (hmb.trans hcb) (hmt.trans hct)
          refine ⟨_, _, hcon, ?_⟩
          set conn : Conn := ⟨⟨b', true⟩, ⟨t', false⟩⟩ with hconn
          have kv := Decomp.mergedConns_val (m := s'.conns) (conn := conn) hbt hft
          have kt : ∀ l, l ≠ t → ((Decomp.mergedConns s'.conns b f t conn).val l).topRight = (D.lengths.conns.val l).topRight := by
            intro l e1
            rw [← hlm.topRight, kv, if_neg e1]
            split
            · next e => subst e; rfl
            · split
              · next e => subst e; rfl
              · rfl
          have kb : ∀ l, l ≠ b → l ≠ t → ((Decomp.mergedConns s'.conns b f t conn).val l).bottomRight = (D.lengths.conns.val l).bottomRight := by
            intro l e1 e2
            rw [← hlm.bottomRight, kv, if_neg e2, if_neg e1]
            split
            · next e => subst e; rfl
            · rfl
          have hother : ∀ j w, j ≠ i → D.comps[j]? = some w → ∀ l ∈ w.iet.top, l ≠ b ∧ l ≠ t := by
            intro j w hj hw l hl
            exact ⟨by rintro rfl; exact hdis j w hj hw l hl hbt', by rintro rfl; exact hdis j w hj hw l hl htt'⟩
          refine ⟨⟨hnd, ?_, ?_, ?_, ?_⟩, fun hC => ⟨?_, ?_⟩⟩
          · intro l hl
            show (Decomp.mergedConns s'.conns b f t conn).val l = {}
            by_cases e1 : l = t
            · rw [kv, if_pos e1]
            · have hlE : l ∉ E'.top := hl _ (hmemset _)
              have hlx : l ∉ x.iet.top := fun h => by
                have := hperm.mem_iff.mpr h
                rw [htop, List.mem_cons] at this
                exact this.elim e1 hlE
              rw [kv, if_neg e1, if_neg (by rintro rfl; exact hlx hbt'), if_neg (by rintro rfl; exact hlx hft'), hlm.out l hlx]
              exact hS.gone l (hgone _ l hl hlx)
          · refine (Decomp.mergedConns_right hbt hft hnd hbk htk).trans ?_
            exact (List.perm_append_comm).trans (hright.append_right _)
          · refine (Decomp.mergedConns_left hbt hft hnd hbk htk hfk).trans ?_
            exact (List.perm_append_comm).trans (hleft.append_right _)
          · intro l w hw
            replace hw : w ∈ rightOf ((Decomp.mergedConns s'.conns b f t conn).val l) := hw
            rw [kv] at hw
            split at hw
            · simp [rightOf] at hw
            · split at hw
              · simp only [rightOf, List.mem_append, List.mem_singleton] at hw
                rcases hw with hw | ((hw | rfl) | hw) | hw
                · exact hpar b w (List.mem_append_left _ hw)
                · exact hpar b w (List.mem_append_right _ hw)
                · exact ⟨rfl, rfl⟩
                · exact hpar t w (List.mem_append_left _ hw)
                · exact hpar t w (List.mem_append_right _ hw)
              · split at hw
                · exact hpar f w hw
                · exact hpar l w hw
          · intro w hw a hal
            show IsChain a ((Decomp.mergedConns s'.conns b f t conn).val a).bottomRight
            rcases mem_set_iff_ne hw with rfl | ⟨j, hj, hjw⟩
            · replace hal : a ∈ (l₁ ++ b :: l₂).dropLast := by rw [← hE'b]; exact hal
              rw [List.nodup_cons, List.nodup_append, List.nodup_cons] at hnb₁
              obtain ⟨n1, n2, ⟨n3, n4⟩, n5⟩ := hnb₁
              simp only [List.mem_append, List.mem_cons, not_or] at n1
              by_cases e1 : a = b
              · subst e1
                have hl₂ : l₂ ≠ [] := by
                  rintro rfl
                  rw [List.dropLast_append_of_ne_nil (by simp)] at hal
                  simp only [List.dropLast_singleton, List.append_nil] at hal
                  exact n1.1 hal
                have htb : IsChain t (s'.conns.val t).bottomRight := by
                  rw [hlm.bottomRight]
                  refine hC.bottom x hx t ((db t).mp ?_)
                  show t ∈ E₁.bottom.dropLast
                  rw [hbot, List.dropLast_cons_of_ne_nil (by simp), List.dropLast_append_of_ne_nil (by simp), List.dropLast_cons_of_ne_nil hl₂]
                  simp
                have htp : IsChainTop t (s'.conns.val t).topRight.reverse := by rw [hlm.topRight]; exact hC.top x hx t htx
                have hbb : IsChain a (s'.conns.val a).bottomRight := by rw [hlm.bottomRight]; exact hC.bottom x hx a hbx
                rw [kv, if_neg hbt, if_pos rfl]
                have e2 := htp.chain _ _ (s'.conns.val t).bottomRight (fun z hz => (hpar t z (List.mem_append_left _ (List.mem_reverse.mp hz))).1) htb
                rw [List.reverse_reverse] at e2
                have hb' : b' = chainEnd a (s'.conns.val a).bottomRight := by
                  have := Decomp.chainBottom_ok _ _ hbb
                  rw [hcb] at this
                  cases this
                  rfl
                have ht' : t' = chainTopEnd t (s'.conns.val t).topRight.reverse := by
                  have := Decomp.chainTop_ok _ _ htp
                  rw [hct] at this
                  cases this
                  rfl
                show IsChain a ((s'.conns.val a).bottomRight ++ [conn] ++ (s'.conns.val t).topRight ++ (s'.conns.val t).bottomRight)
                rw [List.append_assoc, List.append_assoc, isChain_append]
                refine ⟨hbb, ?_, ?_⟩
                · rw [hconn, hb']
                · show IsChain t' _
                  rw [ht']
                  exact e2
              · have hmem : a ∈ l₁ ++ b :: l₂ := List.mem_of_mem_dropLast hal
                have e2 : a ≠ t := by
                  rintro rfl
                  simp only [List.mem_append, List.mem_cons] at hmem
                  rcases hmem with h | h | h
                  · exact n5 a h a (by simp) rfl
                  · exact e1 h
                  · exact n3 h
                rw [kb a e1 e2]
                refine hC.bottom x hx a ((db a).mp ?_)
                show a ∈ E₁.bottom.dropLast
                rw [hbot, List.dropLast_cons_of_ne_nil (by simp), List.mem_cons]
                right
                rw [List.dropLast_append_of_ne_nil (by simp), List.mem_append] at hal ⊢
                rcases hal with hal | hal
                · exact .inl hal
                · right
                  by_cases hl₂ : l₂ = []
                  · subst hl₂; simp at hal
                  · rw [List.dropLast_cons_of_ne_nil hl₂, List.mem_cons] at hal ⊢
                    exact .inr (hal.resolve_left e1)
            · have ha' := (hvz w (List.mem_of_getElem? hjw)).mem_iff.mp (List.mem_of_mem_dropLast hal)
              rw [kb a (hother j w hj hjw a ha').1 (hother j w hj hjw a ha').2]
              exact hC.bottom w (List.mem_of_getElem? hjw) a hal
          · intro w hw a hal
            show IsChainTop a ((Decomp.mergedConns s'.conns b f t conn).val a).topRight.reverse
            rcases mem_set_iff_ne hw with rfl | ⟨j, hj, hjw⟩
            · have hal' : a ∈ E'.top := List.mem_of_mem_dropLast hal
              rw [kt a (by rintro rfl; exact hnd₁.1 hal')]
              refine hC.top x hx a ((dt a).mp ?_)
              show a ∈ E₁.top.dropLast
              rw [htop, List.dropLast_cons_of_ne_nil hne]
              exact List.mem_cons_of_mem _ hal
            · rw [kt a (hother j w hj hjw a (List.mem_of_mem_dropLast hal)).2]
              exact hC.top w (List.mem_of_getElem? hjw) a hal
        · right
          refine ⟨?_, fun hC => hnct (by rw [hlm.topRight]; exact hC.top x hx t htx)⟩
          simp only [Decomp.nonSeparating, assertM, ne_eq, hbt, not_false_eq_true, decide_true, if_true, Decomp.cross_ok (D := D₁) (h := ⟨i, t, true⟩) htk,
            Decomp.cross_ok (D := D₁) (h := ⟨i, b, false⟩) hbk, bind, Except.bind, hmb, hcb, hmt, hct]
      · right
        refine ⟨?_, fun hC => hncb (by rw [hlm.bottomRight]; exact hC.bottom x hx b hbx)⟩
        simp only [Decomp.nonSeparating, assertM, ne_eq, hbt, not_false_eq_true, decide_true, if_true, Decomp.cross_ok (D := D₁) (h := ⟨i, t, true⟩) htk,
          Decomp.cross_ok (D := D₁) (h := ⟨i, b, false⟩) hbk, bind, Except.bind, hmb, hcb]


theorem Decomp.Stored.unlimited (hι : StrictMono ι) {L : PPL} (hL : L.Lawful) {cost : Option ℤ} (hcost : ∀ v, cost = some v → 0 ≤ v) {i : ℕ} {Rr Rl : List Conn} :
    ∀ (n : ℕ) (limit : ℤ) (D D₀ : Decomp σ T) (x : Comp T), 0 ≤ limit → D.Alike D₀ → D₀.Inv H ι A₀ R au → D.comps[i]? = some x → D.Stored Rr Rl →
    (∃ st D', Decomp.unlimited L O cost i n limit D = .ok (st, D') ∧
      D'.Stored (Rr ++ st.connection.toList) (Rl ++ st.connection.toList.map Conn.neg) ∧ (D.Chained → D'.Chained)) ∨
    (Decomp.unlimited L O cost i n limit D = .error .assertFailed ∧ ¬ D.Chained) ∨
    Decomp.unlimited L O cost i n limit D = .error .fuel ∨ (cost = none ∧ Decomp.unlimited L O cost i n limit D = .error .ub) := by
  intro n
  induction n with
  | zero => intro limit D D₀ x _ _ _ _ _; exact .inr (.inr (.inl rfl))
  | succ n ih =>
    intro limit D D₀ x hlim ha hinv hi hS
    obtain ⟨st₂, D₂, h2, h3, h4, -⟩ := decompositionStepBounded_spec hι hL hinv (by rw [← ha.comps]; exact hi) (limit := limit) (by omega)
    rcases hS.bounded hL ha hinv hi (limit := limit) (by omega) with ⟨st₁, D₁, h1, hS₁, hC₁⟩ | ⟨h1, hC⟩
    · obtain ⟨k1, k2⟩ := ha.bounded h1 h2
      simp only [Decomp.unlimited, h1, bind, Except.bind]
      by_cases hr : st₁.result = .limitReached
      · have hr' := k2.result.symm.trans hr
        rw [if_neg (by simpa using hr)]
        obtain ⟨x', e1, e2, e3, e4, e5⟩ := h4.limit hr'
        have e6 : st₁.connection = none := by
          have := k2.connection
          rw [e5] at this
          simpa using this
        rw [e5, Option.toList_none, List.append_nil] at h3
        rw [e6] at hS₁
        have hS₁ : D₁.Stored Rr Rl := by simpa using hS₁
        have h3 : D₂.Inv H ι A₀ R au := by simpa [AutoReport, hr'] using h3
        have hi' : D₁.comps[i]? = some x' := by
          rw [k1.comps, e1, ← ha.comps, List.getElem?_set_self (List.getElem?_eq_some_iff.mp hi).1]
        have key : ∀ lim, 0 ≤ lim → (∃ st D', Decomp.unlimited L O cost i n lim D₁ = .ok (st, D') ∧
            D'.Stored (Rr ++ st.connection.toList) (Rl ++ st.connection.toList.map Conn.neg) ∧ (D.Chained → D'.Chained)) ∨
            (Decomp.unlimited L O cost i n lim D₁ = .error .assertFailed ∧ ¬ D.Chained) ∨
            Decomp.unlimited L O cost i n lim D₁ = .error .fuel ∨ (cost = none ∧ Decomp.unlimited L O cost i n lim D₁ = .error .ub) := by
          intro lim hlim'
          rcases ih lim D₁ D₂ x' hlim' k1 h3 hi' hS₁ with ⟨st, D', g1, g2, g3⟩ | ⟨g1, g2⟩ | g
          · exact .inl ⟨st, D', g1, g2, fun h => g3 (hC₁ h)⟩
          · exact .inr (.inl ⟨g1, fun h => g2 (hC₁ h)⟩)
          · exact .inr (.inr g)
        cases cost with
        | some v => exact key v (hcost v rfl)
        | none =>
          by_cases hm : 2 * (limit + 1) ≤ Decomp.intMax
          · simp only [if_pos hm]
            have := key (2 * (limit + 1)) (by omega)
            simpa using this
          · simp only [if_neg hm]
            exact .inr (.inr (.inr (by simp)))
      · rw [if_pos hr]
        exact .inl ⟨st₁, D₁, rfl, hS₁, hC₁⟩
    · exact .inr (.inl ⟨by simp only [Decomp.unlimited, h1, bind, Except.bind], hC⟩)

/-- A step returns, or it has no limit and does not terminate or overflows its limit, or an assertion fails because connections have been injected which are
not above each other. -/
theorem Decomp.Stored.step (hι : StrictMono ι) {L : PPL} (hL : L.Lawful) {D D₀ : Decomp σ T} (ha : D.Alike D₀) (h : D₀.Inv H ι A₀ R au) {i : ℕ} {x : Comp T}
    (hi : D.comps[i]? = some x) (fuel : ℕ) (limit : ℤ) {Rr Rl : List Conn} (hS : D.Stored Rr Rl) :
    (∃ st D', D.decompositionStep L O fuel limit i = .ok (st, D') ∧
      D'.Stored (Rr ++ st.connection.toList) (Rl ++ st.connection.toList.map Conn.neg) ∧ (D.Chained → D'.Chained)) ∨
    (D.decompositionStep L O fuel limit i = .error .assertFailed ∧ ¬ D.Chained) ∨
    (limit = -1 ∧ (D.decompositionStep L O fuel limit i = .error .fuel ∨
      (D.decompositionStep L O fuel limit i = .error .ub ∧ ∀ v ∈ safList c (H.abs x.iet D.lengths.inner), v = 0))) := by
  by_cases hl : limit = -1
  · subst hl
    have hi₀ : D₀.comps[i]? = some x := by rw [← ha.comps]; exact hi
    have hx₀ := List.mem_of_getElem? hi₀
    have hk : ¬ (x.cylinder = some true ∧ x.keane = some true) := fun h' => (h.flags x hx₀).keane h'.2
    set x' : Comp T := { x with iet := { x.iet with safCache := some (safList c ((LWC.lawful H).unswapped x.iet D₀.lengths)) } } with hx'
    have hi' : (D.setComp i x').comps[i]? = some x' := by
      simp only [Decomp.setComp]
      rw [List.getElem?_set_self (List.getElem?_eq_some_iff.mp hi).1]
    have hrun : D.decompositionStep L O fuel (-1) i =
        Decomp.unlimited L O (if ∀ v ∈ safList c (H.abs x.iet D₀.lengths.inner), v = 0 then none else some 64) i fuel 0 (D.setComp i x') := by
      unfold Decomp.decompositionStep
      rw [if_pos rfl]
      simp only [Decomp.comp_ok hi, assertM, bind, Except.bind]
      rw [if_pos (decide_eq_true hk)]
      simp only
      rw [(LWC.opsRel O).cost _ _ _ ha.lengths, boshernitzanCost_spec H (h.good x hx₀)]
    have hS' : (D.setComp i x').Stored Rr Rl := by
      refine ⟨hS.nodup, ?_, hS.right, hS.left, hS.parallel⟩
      intro l hl
      refine hS.gone l (fun z hz => ?_)
      obtain ⟨j, hj⟩ := List.getElem?_of_mem hz
      by_cases hij : j = i
      · subst hij
        rw [hi] at hj
        cases hj
        exact hl x' (List.mem_of_getElem? hi')
      · refine hl z (List.mem_of_getElem? (i := j) ?_)
        simp only [Decomp.setComp]
        rw [List.getElem?_set_ne (Ne.symm hij)]
        exact hj
    have hC' : (D.setComp i x').Chained ↔ D.Chained := by
      have hmem : ∀ z ∈ (D.setComp i x').comps, z = x' ∨ z ∈ D.comps := by
        intro z hz
        rcases mem_set_iff_ne hz with h | ⟨j, _, hj⟩
        · exact .inl h
        · exact .inr (List.mem_of_getElem? hj)
      have hmem' : ∀ z ∈ D.comps, z = x ∨ z ∈ (D.setComp i x').comps := by
        intro z hz
        obtain ⟨j, hj⟩ := List.getElem?_of_mem hz
        by_cases hij : j = i
        · subst hij
          rw [hi] at hj
          cases hj
          exact .inl rfl
        · refine .inr (List.mem_of_getElem? (i := j) ?_)
          simp only [Decomp.setComp]
          rw [List.getElem?_set_ne (Ne.symm hij)]
          exact hj
      constructor
      · intro hC
        refine ⟨fun z hz => ?_, fun z hz => ?_⟩
        · rcases hmem' z hz with rfl | hz
          · exact hC.bottom x' (List.mem_of_getElem? hi')
          · exact hC.bottom z hz
        · rcases hmem' z hz with rfl | hz
          · exact hC.top x' (List.mem_of_getElem? hi')
          · exact hC.top z hz
      · intro hC
        refine ⟨fun z hz => ?_, fun z hz => ?_⟩
        · rcases hmem z hz with rfl | hz
          · exact hC.bottom x (List.mem_of_getElem? hi)
          · exact hC.bottom z hz
        · rcases hmem z hz with rfl | hz
          · exact hC.top x (List.mem_of_getElem? hi)
          · exact hC.top z hz
    rw [hrun]
    rcases Decomp.Stored.unlimited hι hL (cost := if ∀ v ∈ safList c (H.abs x.iet D₀.lengths.inner), v = 0 then none else some 64)
      (fun v hv => by
        split at hv
        · cases hv
        · cases hv; norm_num) fuel 0 (D.setComp i x') (D₀.setComp i x') x' le_rfl ⟨by simp only [Decomp.setComp, ha.comps], ha.lengths⟩
        (h.setCache hi₀) hi' hS' with ⟨st, D', g1, g2, g3⟩ | ⟨g1, g2⟩ | g | ⟨g0, g⟩
    · exact .inl ⟨st, D', g1, g2, fun h => g3 (hC'.mpr h)⟩
    · exact .inr (.inl ⟨g1, fun h => g2 (hC'.mpr h)⟩)
    · exact .inr (.inr ⟨rfl, .inl g⟩)
    · refine .inr (.inr ⟨rfl, .inr ⟨g, ?_⟩⟩)
      rw [ha.lengths.inner]
      by_contra hne
      rw [if_neg hne] at g0
      cases g0
  · unfold Decomp.decompositionStep
    rw [if_neg hl]
    rcases hS.bounded hL ha h hi hl with h | h
    · exact .inl h
    · exact .inr (.inl h)

/-! ### Injecting connections -/

theorem Decomp.inject_conns {D D' : Decomp σ T} {h : HalfEdge} {left right : List (Label × Label)} {l r : List Conn}
    (hr : D.inject h left right = .ok ((l, r), D')) :
    h.label ∈ D.lengths.conns.keys ∧ D'.comps = D.comps ∧
    l = left.map (fun p => ⟨⟨p.1, false⟩, ⟨p.2, true⟩⟩) ∧ r = right.map (fun p => ⟨⟨p.1, true⟩, ⟨p.2, false⟩⟩) ∧
    D'.lengths.conns = D.lengths.conns.set h.label (if h.top then
      { D.lengths.conns.val h.label with
        topLeft := (D.lengths.conns.val h.label).topLeft ++ l.reverse
        topRight := (D.lengths.conns.val h.label).topRight ++ r.reverse }
      else { D.lengths.conns.val h.label with
        bottomLeft := (D.lengths.conns.val h.label).bottomLeft ++ l
        bottomRight := (D.lengths.conns.val h.label).bottomRight ++ r }) ∧
    (right = [] ∨ (if h.top then (D.lengths.conns.val h.label).topRight else (D.lengths.conns.val h.label).bottomRight) = []) := by
  simp only [Decomp.inject, bindM_ok] at hr
  obtain ⟨⟨⟩, h1, cs, h2, ⟨⟩, h3, D₁, h4, ⟨⟩, h5, D₂, h6, ⟨⟩, h7, h8⟩ := hr
  cases h8
  have hk : h.label ∈ D.lengths.conns.keys := by
    simp only [Decomp.connections, ConnMap.at'] at h2
    split at h2
    · assumption
    · cases h2
  have hcs : cs = D.lengths.conns.val h.label := by
    rw [Decomp.connections_ok hk] at h2
    cases h2
    rfl
  rw [Decomp.modify_ok _ hk] at h4
  cases h4
  rw [Decomp.modify_ok _ (by exact hk)] at h6
  cases h6
  have a5 : right = [] ∨ (if h.top then cs.topRight else cs.bottomRight) = [] := by
    by_contra hne
    simp only [assertM] at h5
    rw [if_neg (by simpa using hne)] at h5
    cases h5
  subst hcs
  refine ⟨hk, rfl, ?_, ?_, ?_, a5⟩
  · cases h.top <;> simp [Decomp.injectLeft]
  · cases h.top <;> simp [Decomp.injectRight]
  · obtain ⟨i, a, top⟩ := h
    simp only [ConnMap.set, ConnMap.mk.injEq, true_and]
    funext y
    by_cases hy : y = a
    · cases top <;> simp [hy, Decomp.injectLeft, Decomp.injectRight]
    · cases top <;> simp [hy]

theorem Decomp.Stored.inject {D D' : Decomp σ T} {h : HalfEdge} {left right : List (Label × Label)} {l r Rr Rl : List Conn} (hS : D.Stored Rr Rl)
    (hh : ∃ x ∈ D.comps, h.label ∈ x.iet.top) (hr : D.inject h left right = .ok ((l, r), D')) : D'.Stored (Rr ++ r) (Rl ++ l) := by
  obtain ⟨hk, hc, hl, hr', hm, -⟩ := Decomp.inject_conns hr
  have hv : ∀ y, y ≠ h.label → D'.lengths.conns.val y = D.lengths.conns.val y := fun y hy => by rw [hm]; simp [ConnMap.set, hy]
  have hv' := congrArg (fun m => m.val h.label) hm
  simp only [ConnMap.set, if_true] at hv'
  have hkeys : D'.lengths.conns.keys = D.lengths.conns.keys := by rw [hm]; rfl
  refine ⟨by rw [hkeys]; exact hS.nodup, ?_, ?_, ?_, ?_⟩
  · intro y hy
    obtain ⟨x, hx, hx'⟩ := hh
    rw [hc] at hy
    rw [hv y (by rintro rfl; exact hy x hx hx')]
    exact hS.gone y hy
  · rw [hkeys]
    refine List.Perm.trans ?_ (hS.right.append_right r)
    rw [List.perm_iff_count]
    intro z
    have := flatMap_update hS.nodup hk (f := fun y => rightOf (D.lengths.conns.val y)) (g := fun y => rightOf (D'.lengths.conns.val y))
      (fun y hy => by simp only [hv y hy]) z
    simp only [hv', rightOf] at this
    cases ht : h.top <;> simp only [ht, if_true, if_false, Bool.false_eq_true, List.count_append, List.count_reverse, rightOf] at this ⊢ <;> omega
  · rw [hkeys]
    refine List.Perm.trans ?_ (hS.left.append_right l)
    rw [List.perm_iff_count]
    intro z
    have := flatMap_update hS.nodup hk (f := fun y => leftOf (D.lengths.conns.val y)) (g := fun y => leftOf (D'.lengths.conns.val y))
      (fun y hy => by simp only [hv y hy]) z
    simp only [hv', leftOf] at this
    cases ht : h.top <;> simp only [ht, if_true, if_false, Bool.false_eq_true, List.count_append, List.count_reverse, leftOf] at this ⊢ <;> omega
  · intro y z hz
    have hz' : z ∈ rightOf (D.lengths.conns.val y) ∨ z ∈ r := by
      by_cases hy : y = h.label
      · subst hy
        simp only [hv', rightOf] at hz ⊢
        cases ht : h.top <;> simp only [ht, if_true, if_false, Bool.false_eq_true, List.mem_append, List.mem_reverse] at hz ⊢ <;> tauto
      · rw [hv y hy] at hz
        exact .inl hz
    rcases hz' with hz' | hz'
    · exact hS.parallel y z hz'
    · rw [hr', List.mem_map] at hz'
      obtain ⟨p, _, rfl⟩ := hz'
      exact ⟨rfl, rfl⟩

theorem UpFrom.chain : ∀ {l : Label} {ps : List (Label × Label)}, UpFrom l ps → IsChain l (ps.map (fun p => (⟨⟨p.1, true⟩, ⟨p.2, false⟩⟩ : Conn)))
  | _, [], _ => trivial
  | _, _ :: _, ⟨h1, h2⟩ => ⟨by simp only [h1], UpFrom.chain h2⟩

theorem DownFrom.chain : ∀ {l : Label} {ps : List (Label × Label)}, DownFrom l ps → IsChainTop l (ps.map (fun p => (⟨⟨p.1, true⟩, ⟨p.2, false⟩⟩ : Conn)))
  | _, [], _ => trivial
  | _, _ :: _, ⟨h1, h2⟩ => ⟨by simp only [h1], DownFrom.chain h2⟩

theorem Decomp.Chained.inject {D D' : Decomp σ T} {h : HalfEdge} {left right : List (Label × Label)} {l r : List Conn} (hC : D.Chained)
    (hsw : ∀ x ∈ D.comps, x.iet.swapped = false)
    (hcons : Consistent D h left right) (hr : D.inject h left right = .ok ((l, r), D')) : D'.Chained := by
  obtain ⟨hk, hc, hl, hr', hm, hn⟩ := Decomp.inject_conns hr
  have hv : ∀ y, y ≠ h.label → D'.lengths.conns.val y = D.lengths.conns.val y := fun y hy => by rw [hm]; simp [ConnMap.set, hy]
  have hv' := congrArg (fun m => m.val h.label) hm
  simp only [ConnMap.set, if_true] at hv'
  refine ⟨fun x hx y hy => ?_, fun x hx y hy => ?_⟩
  · rw [hc] at hx
    have hb : x.bottomContour = x.iet.bottom := by simp [Comp.bottomContour, hsw x hx]
    by_cases hyl : y = h.label
    · subst hyl
      have h1 := hcons.2 x hx
      rw [hv']
      cases ht : h.top
      · simp only [ht, Bool.false_eq_true, if_false, hb] at h1 hn ⊢
        rcases hn with rfl | hn
        · rw [hr']
          simpa using hC.bottom x hx _ hy
        · rw [hn, hr', List.nil_append]
          exact (h1 hy).chain
      · simp only [if_true]
        exact hC.bottom x hx _ hy
    · rw [hv y hyl]
      exact hC.bottom x hx y hy
  · rw [hc] at hx
    have hb : x.topContour = x.iet.top := by simp [Comp.topContour, hsw x hx]
    by_cases hyl : y = h.label
    · subst hyl
      have h1 := hcons.2 x hx
      rw [hv']
      cases ht : h.top
      · simp only [Bool.false_eq_true, if_false]
        exact hC.top x hx _ hy
      · simp only [ht, if_true, hb] at h1 hn ⊢
        rcases hn with rfl | hn
        · rw [hr']
          simpa using hC.top x hx _ hy
        · rw [hn, hr', List.nil_append, List.reverse_reverse]
          exact (h1 hy).chain
    · rw [hv y hyl]
      exact hC.top x hx y hy

end

end Verif
