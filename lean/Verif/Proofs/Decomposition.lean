import Verif.Proofs.Rename
import Verif.Proofs.Chunks
import Verif.Proofs.Conclude
import Verif.Proofs.Contour

/-!
# The invariant of decompositions
-/

namespace Verif

set_option linter.unusedSectionVars false

namespace Decomp

/-! ### Connections -/

theorem mergedConns_val {m : ConnMap} {b f t : Label} {conn : Conn} (hbt : b ≠ t) (hft : f ≠ t) (x : Label) :
    (mergedConns m b f t conn).val x = if x = t then {} else if x = b then
      { topLeft := if f = b then conn.neg :: (m.val b).topLeft else (m.val b).topLeft
        topRight := (m.val b).topRight
        bottomLeft := (m.val b).bottomLeft ++ (m.val t).topLeft ++ (m.val t).bottomLeft
        bottomRight := (m.val b).bottomRight ++ [conn] ++ (m.val t).topRight ++ (m.val t).bottomRight }
      else if x = f then { m.val f with topLeft := conn.neg :: (m.val f).topLeft } else m.val x := by
  by_cases h1 : x = t
  · subst h1; simp [mergedConns, ConnMap.set]
  · by_cases h2 : x = b
    · subst h2
      by_cases h3 : f = x
      · subst h3; simp [mergedConns, ConnMap.set, hbt, hbt.symm]
      · simp [mergedConns, ConnMap.set, hbt, hbt.symm, hft.symm, h3, Ne.symm h3]
    · by_cases h3 : x = f
      · subst h3; simp [mergedConns, ConnMap.set, h1, h2]
      · simp [mergedConns, ConnMap.set, h1, h2, h3]

theorem mergedConns_facts {m : ConnMap} {b f t : Label} {conn : Conn} (hbt : b ≠ t) (hft : f ≠ t) (htr : ∀ x, (m.val x).topRight = []) :
    (mergedConns m b f t conn).keys = m.keys ∧ (∀ x, ((mergedConns m b f t conn).val x).topRight = []) ∧
    ((mergedConns m b f t conn).val b).bottomRight = (m.val b).bottomRight ++ ([conn] ++ (m.val t).bottomRight) ∧
    (mergedConns m b f t conn).val t = {} ∧
    (∀ x, x ≠ b → x ≠ t → ((mergedConns m b f t conn).val x).bottomRight = (m.val x).bottomRight) ∧
    ((mergedConns m b f t conn).val b).bottomLeft = (m.val b).bottomLeft ++ (m.val t).topLeft ++ (m.val t).bottomLeft ∧
    ((mergedConns m b f t conn).val f).topLeft = conn.neg :: (m.val f).topLeft ∧
    (∀ x, x ≠ b → x ≠ t → ((mergedConns m b f t conn).val x).bottomLeft = (m.val x).bottomLeft) ∧
    (∀ x, x ≠ f → x ≠ t → ((mergedConns m b f t conn).val x).topLeft = (m.val x).topLeft) ∧
    (∀ x, x ≠ b → x ≠ t → x ≠ f → (mergedConns m b f t conn).val x = m.val x) ∧
    (∀ K : List Label, K.Nodup → b ∈ K → t ∈ K → f ∈ K → (K.flatMap (fun l => leftOf ((mergedConns m b f t conn).val l))).Perm
      ([conn.neg] ++ K.flatMap (fun l => leftOf (m.val l)))) := by
  have hv := mergedConns_val (m := m) (conn := conn) hbt hft
  refine ⟨rfl, ?_, ?_, ?_, ?_, ?_, ?_, ?_, ?_, ?_, ?_⟩
  · intro x
    rw [hv]
    split
    · rfl
    · split
      · exact htr b
      · split
        · exact htr f
        · exact htr x
  · rw [hv, if_neg hbt, if_pos rfl]; simp [htr]
  · rw [hv, if_pos rfl]
  · intro x h1 h2
    rw [hv, if_neg h2, if_neg h1]
    split
    · next h => rw [h]
    · rfl
  · rw [hv, if_neg hbt, if_pos rfl]
  · rw [hv, if_neg hft]
    split
    · next h => rw [h]
    · simp
  · intro x h1 h2
    rw [hv, if_neg h2, if_neg h1]
    split
    · next h => rw [h]
    · rfl
  · intro x h1 h2
    rw [hv, if_neg h2]
    split
    · next h => subst h; simp [Ne.symm h1]
    · simp
  · intro x h1 h2 h3
    rw [hv, if_neg h2, if_neg h1, if_neg h3]
  · intro K hK hb ht hf
    rw [List.perm_iff_count]
    intro z
    have hb' : b ∈ K.erase t := (List.mem_erase_of_ne hbt).mpr hb
    have e1 := (flatMap_erase ht (fun l => leftOf (m.val l))).count_eq z
    have e2 := (flatMap_erase ht (fun l => leftOf ((mergedConns m b f t conn).val l))).count_eq z
    have e3 := (flatMap_erase hb' (fun l => leftOf (m.val l))).count_eq z
    have e4 := (flatMap_erase hb' (fun l => leftOf ((mergedConns m b f t conn).val l))).count_eq z
    have v1 : (leftOf ((mergedConns m b f t conn).val t)) = [] := by rw [hv, if_pos rfl]; rfl
    rw [v1] at e2
    have hne : ∀ y ∈ (K.erase t).erase b, y ≠ t ∧ y ≠ b := fun y hy =>
      ⟨by rintro rfl; exact hK.not_mem_erase (List.mem_of_mem_erase hy), by rintro rfl; exact (hK.erase t).not_mem_erase hy⟩
    by_cases hfb : f = b
    · have e5 : ((K.erase t).erase b).flatMap (fun l => leftOf ((mergedConns m b f t conn).val l)) =
        ((K.erase t).erase b).flatMap (fun l => leftOf (m.val l)) := flatMap_congr' (fun y hy => by
        rw [hv, if_neg (hne y hy).1, if_neg (hne y hy).2, if_neg (by rw [hfb]; exact (hne y hy).2)])
      rw [e5] at e4
      have v2 : (leftOf ((mergedConns m b f t conn).val b)).count z =
          [conn.neg].count z + (leftOf (m.val b)).count z + (leftOf (m.val t)).count z := by
        rw [hv, if_neg hbt, if_pos rfl]
        simp only [leftOf, hfb, if_true]
        rw [show conn.neg :: (m.val b).topLeft = [conn.neg] ++ (m.val b).topLeft from rfl]
        simp only [List.count_append]
        omega
      simp only [List.count_append, v2, List.count_nil] at e1 e2 e3 e4 ⊢
      omega
    · have hf' : f ∈ (K.erase t).erase b := (List.mem_erase_of_ne hfb).mpr ((List.mem_erase_of_ne hft).mpr hf)
      have e6 := (flatMap_erase hf' (fun l => leftOf (m.val l))).count_eq z
      have e7 := (flatMap_erase hf' (fun l => leftOf ((mergedConns m b f t conn).val l))).count_eq z
      have e5 : (((K.erase t).erase b).erase f).flatMap (fun l => leftOf ((mergedConns m b f t conn).val l)) =
        (((K.erase t).erase b).erase f).flatMap (fun l => leftOf (m.val l)) := flatMap_congr' (fun y hy => by
        have hy' := List.mem_of_mem_erase hy
        rw [hv, if_neg (hne y hy').1, if_neg (hne y hy').2, if_neg (by rintro rfl; exact ((hK.erase t).erase b).not_mem_erase hy)])
      rw [e5] at e7
      have v2 : (leftOf ((mergedConns m b f t conn).val b)).count z = (leftOf (m.val b)).count z + (leftOf (m.val t)).count z := by
        rw [hv, if_neg hbt, if_pos rfl]
        simp only [leftOf, if_neg hfb, List.count_append]
        omega
      have v3 : (leftOf ((mergedConns m b f t conn).val f)).count z = [conn.neg].count z + (leftOf (m.val f)).count z := by
        rw [hv, if_neg hft, if_neg hfb, if_pos rfl]
        simp only [leftOf]
        rw [show conn.neg :: (m.val f).topLeft = [conn.neg] ++ (m.val f).topLeft from rfl]
        simp only [List.count_append]
        omega
      simp only [List.count_append, v2, v3, List.count_nil] at e1 e2 e3 e4 e6 e7 ⊢
      omega

theorem separatedConns_facts {m : ConnMap} {b y : Label} {conn : Conn} (hby : b ≠ y) :
    (separatedConns m b y conn).keys = m.keys ∧
    (separatedConns m b y conn).val b = { m.val b with bottomRight := (m.val b).bottomRight ++ [conn] } ∧
    (separatedConns m b y conn).val y = { m.val y with bottomLeft := (m.val y).bottomLeft ++ [conn.neg] } ∧
    ∀ x, x ≠ b → x ≠ y → (separatedConns m b y conn).val x = m.val x := by
  refine ⟨rfl, ?_, ?_, ?_⟩
  · simp [separatedConns, ConnMap.set, hby]
  · simp [separatedConns, ConnMap.set, hby.symm]
  · intro x h1 h2; simp [separatedConns, ConnMap.set, h1, h2]

end Decomp

/-! ### The invariant -/

variable {σ T ε : Type} [CommRing T] [LinearOrder T] [IsStrictOrderedRing T] {O : LengthsOps σ T}
  {d : ℕ} {c : T →+ (Fin d → ℚ)} {P : Type} [CommRing P] [LinearOrder P] [IsStrictOrderedRing P]

/-- The components with their offsets as pieces of the original IET, for points in `P`. -/
def pcs (H : LawfulLengths O c ε) (ι : T →+ P) (s : σ) (oc : List (P × Comp T)) : List (P × AIET P) :=
  oc.map (fun q => (q.1, (H.abs q.2.iet s).map ι))

/-- `B` is obtained from `A` by induction, removing connections and by keeping the left part when splitting. -/
inductive Descend : AIET T → AIET T → Prop
  | refl {A} : Descend A A
  | agree {A B C} : Descend A B → B.Agree C → Descend A C
  | steps {A B C} : Descend A B → Steps B C → Descend A C
  | cut {A B C r k} : Descend A B → IsCut B C r k → Descend A C
  | merge {A B C} : Descend A B → MergeTop B C → Descend A C

/-- The tracker found an IET similar to this one. -/
def LoopAt (X : AIET T) : Prop :=
  ∃ E₀ E₁ : AIET T, E₀.Valid ∧ Relation.TransGen RauzyStep E₀ E₁ ∧ (E₁.Agree X ∨ E₁.Agree X.inv) ∧ LabelSimilar E₀ X

/-- The tracker found an IET similar to this one that is aligned with it. -/
def LoopSame (X : AIET T) : Prop :=
  ∃ E₀ E₁ : AIET T, E₀.Valid ∧ Relation.TransGen RauzyStep E₀ E₁ ∧ (E₁.Agree X ∨ E₁.Agree X.inv) ∧ LabelSimilar E₀ X ∧ E₀.top.map X.len = X.top.map X.len

/-- What the flags of a component say; `au true` is whether AUTO_SIMILAR has been reported at some point for an IET that was
aligned with the state which the tracker remembers, and `au false` is whether it has been reported for another IET. -/
structure FlagsOk (c : T →+ (Fin d → ℚ)) (au : Bool → Prop) (x : Comp T) (A : AIET T) : Prop where
  cylinder : x.cylinder = some true → A.top.length = 1
  periodic : x.withoutPeriodicTrajectory = some true → ∃ X : AIET T, X.Valid ∧ Descend X A ∧
    ((¬ PosRelation c X ∧ 1 < X.top.length) ∨ ((au false ∨ au true ∧ LoopSame X) ∧ LoopAt X ∧ (∀ v ∈ safList c X, v = 0) ∧ 1 < X.top.length))
  not_cylinder : x.cylinder = some false ↔ x.withoutPeriodicTrajectory = some true
  not_periodic : x.withoutPeriodicTrajectory = some false ↔ x.cylinder = some true
  keane : x.keane ≠ some true

theorem FlagsOk.fresh {au : Bool → Prop} (E : IET T) (A : AIET T) : FlagsOk c au { iet := E } A where
  cylinder h := by cases h
  periodic h := by cases h
  not_cylinder := by simp
  not_periodic := by simp
  keane h := by cases h

theorem FlagsOk.mono {au au' : Bool → Prop} {x x' : Comp T} {A B : AIET T} (h : FlagsOk c au x A) (hau : ∀ b, au b → au' b) (h1 : x'.cylinder = x.cylinder)
    (h2 : x'.withoutPeriodicTrajectory = x.withoutPeriodicTrajectory) (h3 : x'.keane = x.keane)
    (hl : A.top.length = 1 → B.top.length = 1) (hd : ∀ X, Descend X A → Descend X B) : FlagsOk c au' x' B where
  cylinder hx := hl (h.cylinder (h1 ▸ hx))
  periodic hx := by
    obtain ⟨X, g1, g2, g3⟩ := h.periodic (h2 ▸ hx)
    exact ⟨X, g1, hd X g2, g3.imp id (fun h => ⟨h.1.imp (hau _) (And.imp_left (hau _)), h.2⟩)⟩
  not_cylinder := by rw [h1, h2]; exact h.not_cylinder
  not_periodic := by rw [h1, h2]; exact h.not_periodic
  keane := by rw [h3]; exact h.keane

/-- A decomposition of `A₀` that has been obtained by steps which reported the connections in `R`. -/
structure Decomp.Inv (H : LawfulLengths O c ε) (ι : T →+ P) (A₀ : AIET T) (D : Decomp σ T) (R : List Conn) (au : Bool → Prop) : Prop where
  good : ∀ x ∈ D.comps, (LWC.lawful H).Good x.iet D.lengths
  swapped : ∀ x ∈ D.comps, x.iet.swapped = false
  flags : ∀ x ∈ D.comps, FlagsOk c au x (H.abs x.iet D.lengths.inner)
  track : ∃ oc : List (P × Comp T), oc.map Prod.snd = D.comps ∧
    Track (A₀.map ι) (pcs H ι D.lengths.inner oc) D.lengths.conns R

/-- The invariant does not depend on how we say that AUTO_SIMILAR has been reported. -/
theorem Decomp.Inv.imp {H : LawfulLengths O c ε} {ι : T →+ P} {A₀ : AIET T} {D : Decomp σ T} {R : List Conn} {au au' : Bool → Prop}
    (h : D.Inv H ι A₀ R au) (hau : ∀ b, au b → au' b) : D.Inv H ι A₀ R au' :=
  ⟨h.good, h.swapped, fun x hx => (h.flags x hx).mono hau rfl rfl rfl id (fun _ => id), h.track⟩

/-- AUTO_SIMILAR has been reported; `same` is whether the component is aligned with the state that the tracker remembers. -/
def AutoReport (O : LengthsOps σ T) (D' : Decomp σ T) (i : ℕ) (step : DStep) (same : Bool) : Prop :=
  step.result = .withoutPeriodicTrajectoryAutoSimilar ∧ ∃ x, D'.comps[i]? = some x ∧ (x.iet.Aligned O D'.lengths.inner ↔ same = true)

/-- What a step does to the list of components. -/
inductive CompsEffect (comps : List (Comp T)) (i : ℕ) (x : Comp T) : DStep → List (Comp T) → Prop
  | same {step : DStep} {x' : Comp T} : step.connection = none → step.additional = none → step.equivalent = none →
      step.result ≠ .separatingConnection → step.result ≠ .nonSeparatingConnection →
      x'.iet.top.Perm x.iet.top →
      (step.result = .limitReached → x'.cylinder = x.cylinder ∧ x'.withoutPeriodicTrajectory = x.withoutPeriodicTrajectory) →
      (step.result = .cylinder → x'.cylinder = some true ∧ x'.withoutPeriodicTrajectory = some false) →
      (step.result = .withoutPeriodicTrajectoryBoshernitzan ∨ step.result = .withoutPeriodicTrajectoryAutoSimilar →
        x'.cylinder = some false ∧ x'.withoutPeriodicTrajectory = some true) →
      step.result ≠ .keane →
      CompsEffect comps i x step (comps.set i x')
  | split {step : DStep} {x' y : Comp T} {conn : Conn} : step.result = .separatingConnection → step.connection = some conn →
      step.additional = some comps.length →
      (x'.iet.top ++ y.iet.top).Perm x.iet.top → x'.iet.top ≠ [] → y.iet.top ≠ [] → conn.target.label ∈ x'.iet.top →
      x'.cylinder = x.cylinder → x'.withoutPeriodicTrajectory = x.withoutPeriodicTrajectory → y.cylinder = none →
      y.withoutPeriodicTrajectory = none →
      CompsEffect comps i x step (comps.set i x' ++ [y])
  | merge {step : DStep} {x' : Comp T} {conn : Conn} : step.result = .nonSeparatingConnection → step.connection = some conn →
      step.additional = none → (conn.target.label :: x'.iet.top).Perm x.iet.top → x'.iet.top ≠ [] →
      x'.cylinder = x.cylinder → x'.withoutPeriodicTrajectory = x.withoutPeriodicTrajectory →
      CompsEffect comps i x step (comps.set i x')

section

variable {H : LawfulLengths O c ε} {ι : T →+ P} {A₀ : AIET P} {D : Decomp σ T} {R : List Conn}

theorem pcs_set {s : σ} {oc : List (P × Comp T)} {i : ℕ} {q : P × Comp T} (hi : oc[i]? = some q) {m : ConnMap} {o' : P} {x' : Comp T}
    {more : List (P × Comp T)}
    (h : Track A₀ ((o', (H.abs x'.iet s).map ι) :: (pcs H ι s more ++ pcs H ι s (oc.eraseIdx i))) m R) :
    Track A₀ (pcs H ι s (oc.set i (o', x') ++ more)) m R := by
  refine h.perm ?_
  have h1 := (set_perm_cons (o', x') hi)
  have h2 : ((o', x') :: (more ++ oc.eraseIdx i)).Perm (oc.set i (o', x') ++ more) := by
    refine List.Perm.trans ?_ (h1.symm.append_right more)
    rw [List.cons_append]
    exact List.Perm.cons _ List.perm_append_comm
  have h3 := h2.map (fun q => (q.1, (H.abs q.2.iet s).map ι))
  simpa [pcs] using h3

/-- Induction of one of the components. -/
theorem Track.moves (hι : StrictMono ι) {oc : List (P × Comp T)} {s s' : LWC σ} (h : Track A₀ (pcs H ι s.inner oc) s.conns R) {i : ℕ}
    {q : P × Comp T}
    (hi : oc[i]? = some q) {E E₁ : IET T} (hE : E.top = q.2.iet.top) (hE' : E.bottom = q.2.iet.bottom)
    (hm : Moves (LWC.lawful H) (E, s) (E₁, s')) (hok : (LWC.lawful H).Ok E s) (hsw : E.swapped = false)
    (hoth : s.others = ((oc.map Prod.snd).eraseIdx i).map (fun x => x.iet.ctx)) :
    ∃ o', Track A₀ ((o', (H.abs E₁ s'.inner).map ι) :: pcs H ι s'.inner (oc.eraseIdx i)) s'.conns R := by
  have h1 : Track A₀ ((q.1, (H.abs E s.inner).map ι) :: pcs H ι s.inner (oc.eraseIdx i)) s.conns R := by
    have := h.perm ((perm_cons_eraseIdx hi).map (fun q : P × Comp T => (q.1, (H.abs q.2.iet s.inner).map ι)))
    simp only [List.map_cons] at this
    simp only [LawfulLengths.abs, hE, hE'] at this ⊢
    exact this
  have hd := h1.disjoint
  rw [List.pairwise_cons] at hd
  obtain ⟨δ, h2⟩ := h1.steps (B := (H.abs E₁ s'.inner).map ι) (Steps.map hι hm.steps) (Moves.top_perm hm) hm.left.2 (fun lv hlv => by
    refine hm.closed hsw ?_ lv hlv
    rw [hoth, List.eraseIdx_map, List.map_map]
    intro x hx a ha e
    obtain ⟨q', hq', rfl⟩ := List.mem_map.mp hx
    exact hd.1 (q'.1, (H.abs q'.2.iet s.inner).map ι) (List.mem_map.mpr ⟨q', hq', rfl⟩) a ha (List.mem_of_head? e))
  refine ⟨q.1 + δ, ?_⟩
  have h3 := h2.congr (len := fun a => ι (H.len s'.inner a)) (by
    simp only [List.forall_mem_cons]
    refine ⟨fun _ _ => rfl, ?_⟩
    intro p hp a ha
    have : a ∉ E.top := fun h => hd.1 p hp a h ha
    simp only [pcs, List.mem_map] at hp
    obtain ⟨q', _, rfl⟩ := hp
    have hf := (Moves.frame hm hok this).symm
    simp only [AIET.map]
    exact congrArg ι hf)
  simpa [pcs, List.map_map, Function.comp_def, LawfulLengths.abs, AIET.map] using h3

end

section

variable {H : LawfulLengths O c ε} {ι : T →+ P} {A₀ : AIET T} {D : Decomp σ T} {R : List Conn} {au : Bool → Prop}

theorem Decomp.Inv.disjoint (h : D.Inv H ι A₀ R au) : D.comps.Pairwise (fun x y => ∀ a ∈ x.iet.top, a ∉ y.iet.top) := by
  obtain ⟨oc, h1, h2⟩ := h.track
  have := h2.disjoint
  rw [← h1, List.pairwise_map]
  rw [pcs, List.pairwise_map] at this
  exact this

theorem Descend.length_one {A B : AIET T} (h : Steps A B) (hA : A.top.length = 1) : B.top.length = 1 := by
  rw [(Steps.top_perm h).length_eq, hA]

/-- Put together the invariant after one component has been changed and components have been added. -/
theorem Decomp.Inv.build (h : D.Inv H ι A₀ R au) {i : ℕ} {x x' : Comp T} (hi : D.comps[i]? = some x) {s' : LWC σ}
    (hdom : (LWC.lawful H).dom s' = (LWC.lawful H).dom D.lengths)
    (hframe : ∀ a, a ∉ x.iet.top → H.len s'.inner a = H.len D.lengths.inner a)
    {au' : Bool → Prop} (hau : ∀ b, au b → au' b)
    (hgood : (LWC.lawful H).Good x'.iet s') (hsw : x'.iet.swapped = false) (hfl : FlagsOk c au' x' (H.abs x'.iet s'.inner))
    {more : List (P × Comp T)}
    (hmore : ∀ q ∈ more, (LWC.lawful H).Good q.2.iet s' ∧ q.2.iet.swapped = false ∧ FlagsOk c au' q.2 (H.abs q.2.iet s'.inner))
    {R' : List Conn}
    (htrack : ∀ oc : List (P × Comp T), oc.map Prod.snd = D.comps → Track (A₀.map ι) (pcs H ι D.lengths.inner oc) D.lengths.conns R →
      ∃ o', ∃ more' : List (P × Comp T), more'.map Prod.snd = more.map Prod.snd ∧
        Track (A₀.map ι) ((o', (H.abs x'.iet s'.inner).map ι) :: (pcs H ι s'.inner more' ++ pcs H ι s'.inner (oc.eraseIdx i))) s'.conns R') :
    Decomp.Inv H ι A₀ ⟨D.comps.set i x' ++ more.map Prod.snd, s'⟩ R' au' := by
  have hdis : ∀ j z, j ≠ i → D.comps[j]? = some z → ∀ a ∈ z.iet.top, a ∉ x.iet.top := fun j z hj hz =>
    pairwise_getElem_ne (fun _ _ h a ha ha' => h a ha' ha) h.disjoint hz hi hj
  have hz : ∀ z, z ∈ D.comps.set i x' ++ more.map Prod.snd → z = x' ∨ (∃ j, j ≠ i ∧ D.comps[j]? = some z) ∨ ∃ q ∈ more, q.2 = z := by
    intro z hz
    rw [List.mem_append] at hz
    rcases hz with hz | hz
    · rcases mem_set_iff_ne hz with h | h
      · exact .inl h
      · exact .inr (.inl h)
    · rw [List.mem_map] at hz
      exact .inr (.inr hz)
  refine ⟨?_, ?_, ?_, ?_⟩
  · intro z hz'
    rcases hz z hz' with rfl | ⟨j, hj, hjz⟩ | ⟨q, hq, rfl⟩
    · exact hgood
    · refine (h.good z (List.mem_of_getElem? hjz)).frame hgood.ok hdom ?_
      intro a ha
      exact hframe a (hdis j z hj hjz a ha)
    · exact (hmore q hq).1
  · intro z hz'
    rcases hz z hz' with rfl | ⟨j, hj, hjz⟩ | ⟨q, hq, rfl⟩
    · exact hsw
    · exact h.swapped z (List.mem_of_getElem? hjz)
    · exact (hmore q hq).2.1
  · intro z hz'
    rcases hz z hz' with rfl | ⟨j, hj, hjz⟩ | ⟨q, hq, rfl⟩
    · exact hfl
    · refine (h.flags z (List.mem_of_getElem? hjz)).mono hau rfl rfl rfl id (fun X hX => hX.agree ⟨rfl, rfl, ?_⟩)
      intro a ha
      exact (hframe a (hdis j z hj hjz a ha)).symm
    · exact (hmore q hq).2.2
  · obtain ⟨oc, h1, h2⟩ := h.track
    obtain ⟨o', more', h3, h4⟩ := htrack oc h1 h2
    have hoc : ∃ q, oc[i]? = some q := by
      have : i < oc.length := by
        rw [← List.length_map (f := Prod.snd), h1]
        exact (List.getElem?_eq_some_iff.mp hi).1
      exact ⟨oc[i], List.getElem?_eq_getElem this⟩
    obtain ⟨q, hq⟩ := hoc
    refine ⟨oc.set i (o', x') ++ more', ?_, pcs_set hq h4⟩
    rw [List.map_append, List.map_set, h1, h3]

/-- The components are closed, and a reported connection together with its equivalent is a closed contour. -/
def Looped (top bottom : List Label) (D : Decomp σ T) (step : DStep) : Prop :=
  ∃ lv, (∀ y ∈ D.comps, ClosedIn top bottom D.lengths.conns lv y.iet.top y.iet.bottom) ∧
    ∀ conn, step.connection = some conn → ∃ eqv, step.equivalent = some eqv ∧ Contour top bottom lv (.conn conn :: eqv.reverse.map Side.flip)

theorem Decomp.Inv.closed (h : D.Inv H ι A₀ R au) : ∃ lv, ∀ y ∈ D.comps, ClosedIn A₀.top A₀.bottom D.lengths.conns lv y.iet.top y.iet.bottom := by
  obtain ⟨oc, hoc, ht⟩ := h.track
  obtain ⟨lv, hlv⟩ := ht.closed
  refine ⟨lv, fun y hy => ?_⟩
  rw [← hoc] at hy
  obtain ⟨q, hq, rfl⟩ := List.mem_map.mp hy
  exact hlv (q.1, (H.abs q.2.iet D.lengths.inner).map ι) (List.mem_map.mpr ⟨q, hq, rfl⟩)

theorem Decomp.Inv.contour (h : D.Inv H ι A₀ R au) {lv : Label → Label} {y : Comp T} (hy : y ∈ D.comps)
    (hc : ClosedIn A₀.top A₀.bottom D.lengths.conns lv y.iet.top y.iet.bottom) (i : ℕ) :
    Contour A₀.top A₀.bottom lv (y.iet.bottom.flatMap (fun l => Decomp.crossList D.lengths.conns ⟨i, l, false⟩) ++
      y.iet.top.reverse.flatMap (fun l => Decomp.crossList D.lengths.conns ⟨i, l, true⟩)) := by
  obtain ⟨oc, hoc, ht⟩ := h.track
  rw [← hoc] at hy
  obtain ⟨q, hq, rfl⟩ := List.mem_map.mp hy
  exact ht.contour (p := (q.1, (H.abs q.2.iet D.lengths.inner).map ι)) (List.mem_map.mpr ⟨q, hq, rfl⟩) hc i

theorem Decomp.Inv.looped (h : D.Inv H ι A₀ R au) {step : DStep} (hs : step.connection = none) : Looped A₀.top A₀.bottom D step := by
  obtain ⟨lv, hlv⟩ := h.closed
  exact ⟨lv, hlv, fun conn hc => by rw [hs] at hc; cases hc⟩

theorem and_of {A B C L : Prop} (ha : A) (hb : B) (hc : C) (hl : A → L) : A ∧ B ∧ C ∧ L := ⟨ha, hb, hc, hl ha⟩

theorem flip_flip (l : List Side) : (l.map Side.flip).map Side.flip = l := by
  rw [List.map_map]
  conv_rhs => rw [← List.map_id l]
  refine List.map_congr_left (fun x _ => ?_)
  cases x <;> rfl

theorem crossRev_flip (m : ConnMap) (h : HalfEdge) : (Decomp.crossRev m h).reverse.map Side.flip = Decomp.crossList m h := by
  rw [Decomp.crossRev, ← List.map_reverse, List.reverse_reverse, flip_flip]

theorem flatMap_crossRev (m : ConnMap) (f : Label → HalfEdge) : ∀ l : List Label,
    ((l.flatMap (fun x => Decomp.crossRev m (f x))).reverse.map Side.flip) = l.reverse.flatMap (fun x => Decomp.crossList m (f x))
  | [] => rfl
  | x :: l => by
    rw [List.flatMap_cons, List.reverse_append, List.map_append, crossRev_flip, flatMap_crossRev m f l, List.reverse_cons, List.flatMap_append]
    simp

/-- A step with a limit always returns and keeps the invariant. -/
theorem decompositionStepBounded_spec (hι : StrictMono ι) {L : PPL} (hL : L.Lawful) (h : D.Inv H ι A₀ R au) {i : ℕ} {x : Comp T}
    (hi : D.comps[i]? = some x) {limit : ℤ} (hlimit : limit ≠ -1) :
    ∃ step D', D.decompositionStepBounded L O limit i = .ok (step, D') ∧ D'.Inv H ι A₀ (R ++ step.connection.toList) (fun b => au b ∨ AutoReport O D' i step b) ∧
      CompsEffect D.comps i x step D'.comps ∧ (∀ a, a ∉ x.iet.top → H.len D'.lengths.inner a = H.len D.lengths.inner a) ∧
      Looped A₀.top A₀.bottom D' step := by
  have hx := List.mem_of_getElem? hi
  have hflags := h.flags x hx
  have hk : ¬ (x.cylinder = some true ∧ x.keane = some true) := fun h' => hflags.keane h'.2
  set s : LWC σ := { D.lengths with others := D.others i } with hs
  have hg : (LWC.lawful H).Good x.iet s := LWC.good_congr (h.good x hx) rfl rfl rfl
  set E : IET T := { x.iet with safCache := some (safList c ((LWC.lawful H).unswapped x.iet s)) } with hE
  have hgE : (LWC.lawful H).Good E s := hg.setCache
  set cost : Option ℤ := if ∀ v ∈ safList c (H.abs x.iet s.inner), v = 0 then none else some 64 with hcost
  have hcost' : ∀ v, cost = some v → 0 < v := by
    intro v hv
    rw [hcost] at hv
    split at hv
    · cases hv
    · cases hv; norm_num
  obtain ⟨step, E', s', h1, h2, h3, h4, h5, h6⟩ := chunks_spec H hL cost hcost' (limit.toNat + 1) limit E s hlimit (Nat.lt_succ_self _) hgE
  have hsw' : E'.swapped = false := h6.trans (h.swapped x hx)
  have hset : (D.comps.set i ({ x with iet := E' } : Comp T))[i]? = some { x with iet := E' } := by
    rw [List.getElem?_set_self (List.getElem?_eq_some_iff.mp hi).1]
  have hrun : D.decompositionStepBounded L O limit i =
      Decomp.conclude { comps := D.comps.set i { x with iet := E' }, lengths := s' } i step := by
    unfold Decomp.decompositionStepBounded
    simp only [Decomp.comp_ok hi, assertM, bind, Except.bind]
    rw [if_pos (decide_eq_true hk)]
    simp only
    rw [boshernitzanCost_spec H hg]
    simp only
    rw [h1]
    rfl
  have hdom : (LWC.lawful H).dom s' = (LWC.lawful H).dom D.lengths := h4
  have hframe : ∀ a, a ∉ x.iet.top → H.len s'.inner a = H.len D.lengths.inner a := h5
  have hcompI : ∀ l : LWC σ, Decomp.comp { comps := D.comps.set i ({ x with iet := E' } : Comp T), lengths := l } i = .ok { x with iet := E' } :=
    fun l => Decomp.comp_ok hset
  have hkeys : ∀ E₁, Moves (LWC.lawful H) (E, s) (E₁, s') → s'.conns.keys = A₀.top := by
    intro E₁ hm
    obtain ⟨oc, _, ht⟩ := h.track
    exact hm.left.2.keys.trans ht.keys
  -- the cases in which nothing but the flags changes
  have simple : ∀ (au' : Bool → Prop) (_ : ∀ b, au b → au' b) (x' : Comp T) (E₁ : IET T), x'.iet = E' → Moves (LWC.lawful H) (E, s) (E₁, s') → E'.top = E₁.top → E'.bottom = E₁.bottom →
      FlagsOk c au' x' (H.abs E' s'.inner) → Decomp.Inv H ι A₀ ⟨D.comps.set i x', s'⟩ R au' := by
    intro au' hau x' E₁ hx' hm ht hb hf
    have := h.build (x' := x') (more := []) (R' := R) hi hdom hframe hau (by rw [hx']; exact h3) (by rw [hx']; exact hsw') (by rw [hx']; exact hf)
      (by simp) (by
        intro oc hoc htr
        obtain ⟨hq, hq'⟩ : ∃ q, oc[i]? = some q ∧ q.2 = x := by
          rw [← hoc, List.getElem?_map] at hi
          cases hq : oc[i]? with
          | none => rw [hq] at hi; cases hi
          | some q => rw [hq] at hi; simp only [Option.map_some, Option.some.injEq] at hi; exact ⟨q, rfl, hi⟩
        obtain ⟨o', ho⟩ := Track.moves hι (s := s) htr hq'.1 (E := E) (E₁ := E₁) (by rw [hq'.2]) (by rw [hq'.2]) hm hgE.ok (h.swapped x hx) (by rw [hoc]; rfl)
        refine ⟨o', [], rfl, ?_⟩
        rw [hx', show H.abs E' s'.inner = H.abs E₁ s'.inner by simp only [LawfulLengths.abs, ht, hb]]
        exact ho)
    simpa using this
  have hperm : ∀ E₁, Moves (LWC.lawful H) (E, s) (E₁, s') → E₁.top.Perm x.iet.top := fun E₁ hm => Moves.top_perm hm
  have hdesc : ∀ E₁, Moves (LWC.lawful H) (E, s) (E₁, s') → ∀ X, Descend X (H.abs x.iet D.lengths.inner) → Descend X (H.abs E₁ s'.inner) :=
    fun E₁ hm X hX => hX.steps hm.steps
  rw [hrun]
  cases h2 with
  | cylinder hm hlen =>
    have hcon : Decomp.conclude { comps := D.comps.set i { x with iet := E' }, lengths := s' } i ⟨.cylinder, none, none⟩ =
        .ok ({ result := .cylinder }, ⟨D.comps.set i ⟨E', some true, some false, some false⟩, s'⟩) := by
      simp only [Decomp.conclude, hcompI, bind, Except.bind, pure, Except.pure, Decomp.setComp, List.set_set]
    refine ⟨_, _, hcon, and_of ?_ ?_ hframe (fun h => h.looped rfl)⟩
    · simp only [Option.toList_none, List.append_nil]
      refine simple _ (fun _ => .inl) _ E' rfl hm rfl rfl ⟨fun _ => hlen, ?_, ?_, ?_, ?_⟩ <;> simp
    · exact .same rfl rfl rfl (by simp) (by simp) (hperm E' hm) (by simp) (by simp) (by simp) (by simp)
  | auto hm hloop hsaf hlen =>
    have hcon : Decomp.conclude { comps := D.comps.set i { x with iet := E' }, lengths := s' } i
        ⟨.withoutPeriodicTrajectoryAutoSimilar, none, none⟩ =
        .ok ({ result := .withoutPeriodicTrajectoryAutoSimilar }, ⟨D.comps.set i ⟨E', some false, some true, x.keane⟩, s'⟩) := by
      simp only [Decomp.conclude, hcompI, bind, Except.bind, pure, Except.pure, Decomp.setComp, List.set_set]
    refine ⟨_, _, hcon, and_of ?_ ?_ hframe (fun h => h.looped rfl)⟩
    · simp only [Option.toList_none, List.append_nil]
      refine simple _ (fun _ => .inl) _ E' rfl hm rfl rfl ⟨by simp, fun _ => ⟨_, h3.ok.valid, .refl, .inr ⟨?_, (let ⟨E₀, E₁, a1, a2, a3, a4, _⟩ := hloop; ⟨E₀, E₁, a1, a2, a3, a4⟩), ?_, ?_⟩⟩, by simp, by simp, hflags.keane⟩
      · by_cases ht : E'.Aligned O s'.inner
        · exact .inr ⟨.inr ⟨rfl, _, List.getElem?_set_self (List.getElem?_eq_some_iff.mp hi).1, by simpa using ht⟩,
            hloop.aligned h3.ok.inv h3.ok.dom h3.ok.valid (show E'.Aligned (LWC.ops O) s' from ht)⟩
        · exact .inl (.inr ⟨rfl, _, List.getElem?_set_self (List.getElem?_eq_some_iff.mp hi).1, by simpa using ht⟩)
      · have := safList_moves hm hgE.ok
        simp only at this
        rwa [this]
      · have := List.length_pos_iff.mpr h3.ok.valid.ne_nil
        simp only [LawfulLengths.abs] at this ⊢
        omega
    · exact .same rfl rfl rfl (by simp) (by simp) (hperm E' hm) (by simp) (by simp) (by simp) (by simp)
  | @finish E₁ _ _ _ hm hf =>
    have hv₁ : (H.abs E₁ s'.inner).Valid := (hm.ok hgE.ok).valid
    cases hf with
    | limit ht hb _ _ _ =>
      have hcon : Decomp.conclude { comps := D.comps.set i { x with iet := E' }, lengths := s' } i ⟨.limitReached, none, none⟩ =
          .ok ({ result := .limitReached }, ⟨D.comps.set i { x with iet := E' }, s'⟩) := by
        simp only [Decomp.conclude, hcompI, bind, Except.bind, pure, Except.pure]
      refine ⟨_, _, hcon, and_of ?_ ?_ hframe (fun h => h.looped rfl)⟩
      · simp only [Option.toList_none, List.append_nil]
        refine simple _ (fun _ => .inl) _ E₁ rfl hm ht hb (hflags.mono (fun _ => .inl) rfl rfl rfl ?_ ?_)
        · intro h1
          simp only [LawfulLengths.abs] at h1 ⊢
          rw [ht, (hperm E₁ hm).length_eq, h1]
        · intro X hX
          exact (hdesc E₁ hm X hX).agree ⟨ht.symm, hb.symm, fun _ _ => rfl⟩
      · exact .same rfl rfl rfl (by simp) (by simp) (by simp only [ht]; exact hperm E₁ hm) (by simp) (by simp) (by simp) (by simp)
    | boshernitzan ht hb _ hheads hrel _ =>
      have hcon : Decomp.conclude { comps := D.comps.set i { x with iet := E' }, lengths := s' } i
          ⟨.withoutPeriodicTrajectoryBoshernitzan, none, none⟩ =
          .ok ({ result := .withoutPeriodicTrajectoryBoshernitzan }, ⟨D.comps.set i ⟨E', some false, some true, x.keane⟩, s'⟩) := by
        simp only [Decomp.conclude, hcompI, bind, Except.bind, pure, Except.pure, Decomp.setComp, List.set_set]
      have hlen : 1 < E₁.top.length := by
        by_contra hlt
        have hpos := List.length_pos_iff.mpr hv₁.ne_nil
        simp only [LawfulLengths.abs] at hpos
        obtain ⟨a, ha⟩ := List.length_eq_one_iff.mp (show E₁.top.length = 1 by omega)
        have hp := hv₁.perm
        simp only [LawfulLengths.abs, ha] at hp
        have hp' := List.perm_singleton.mp hp
        apply hheads
        intro u v hu hv'
        simp only [LawfulLengths.abs, LWC.lawful, ha, hp', List.head?_cons, Option.some.injEq] at hu hv' ⊢
        rw [← hu, ← hv']
      refine ⟨_, _, hcon, and_of ?_ ?_ hframe (fun h => h.looped rfl)⟩
      · simp only [Option.toList_none, List.append_nil]
        refine simple _ (fun _ => .inl) _ E₁ rfl hm ht hb ⟨by simp, fun _ => ⟨_, hv₁, .agree .refl ⟨ht.symm, hb.symm, fun _ _ => rfl⟩, .inl ⟨hrel, hlen⟩⟩,
          by simp, by simp, hflags.keane⟩
      · exact .same rfl rfl rfl (by simp) (by simp) (by simp only [ht]; exact hperm E₁ hm) (by simp) (by simp) (by simp) (by simp)
    | @separating _ R' k b t hcut hgR hRsw hb ht =>
      obtain ⟨y, hy⟩ : ∃ y, R'.bottom.head? = some y := by obtain ⟨_, b, _, hb⟩ := hgR.ok.valid.heads; exact ⟨b, hb⟩
      obtain ⟨z, hz⟩ : ∃ z, R'.top.head? = some z := by obtain ⟨b, _, hb, _⟩ := hgR.ok.valid.heads; exact ⟨b, hb⟩
      have hcut' : IsCut (H.abs E₁ s'.inner) (H.abs E' s'.inner) (H.abs R' s'.inner) k := hcut
      obtain ⟨f1, f2, _, _, f5, f6, f7⟩ := hcut'.facts hv₁
      have hby : b ≠ y := by
        rintro rfl
        exact f5 b (f6.mem_iff.mp (List.mem_of_getLast? hb)) (f7.mem_iff.mp (List.mem_of_head? hy))
      have hchain : IsChain b (s'.conns.val b).bottomRight ∧ (s'.conns.val t).topRight = [] := by
        obtain ⟨oc, hoc, htr⟩ := h.track
        obtain ⟨q, hq, hq'⟩ : ∃ q, oc[i]? = some q ∧ q.2 = x := by
          rw [← hoc, List.getElem?_map] at hi
          cases hq : oc[i]? with
          | none => rw [hq] at hi; cases hi
          | some q => rw [hq] at hi; simp only [Option.map_some, Option.some.injEq] at hi; exact ⟨q, rfl, hi⟩
        obtain ⟨o', ho⟩ := Track.moves hι (s := s) htr hq (E := E) (E₁ := E₁) (by rw [hq']) (by rw [hq']) hm hgE.ok (h.swapped x hx) (by rw [hoc]; rfl)
        exact ⟨ho.chain b, ho.topRight t⟩
      have hcon := Decomp.separating_ok (D := { comps := D.comps.set i { x with iet := E' }, lengths := s' }) hset hsw'
        (fun a ha => (h3.ok.dom a ha).2) (fun a ha => (h3.ok.dom a (h3.ok.valid.perm.mem_iff.mp ha)).2) h3.ok.valid.nodup
        h3.ok.valid.inv.nodup hb ht hchain.1 hchain.2 hRsw hy (hgR.ok.dom y (hgR.ok.valid.perm.mem_iff.mp (List.mem_of_head? hy))).2
        hz (hgR.ok.dom z (List.mem_of_head? hz)).2
      have hcon' : Decomp.conclude { comps := D.comps.set i { x with iet := E' }, lengths := s' } i
          ⟨.separatingConnection, some (b, t), some R'⟩ =
          Decomp.separating { comps := D.comps.set i { x with iet := E' }, lengths := s' } i b t R' := by
        simp only [Decomp.conclude, hcompI, bind, Except.bind]
      refine ⟨_, _, hcon'.trans hcon, and_of ?_ ?_ hframe ?_⟩
      · have := h.build (x' := { x with iet := E' })
          (s' := { s' with conns := Decomp.separatedConns s'.conns b y ⟨⟨s'.conns.endOf b, true⟩, ⟨t, false⟩⟩ })
          (more := [(0, { iet := R' })]) (R' := R ++ [⟨⟨s'.conns.endOf b, true⟩, ⟨t, false⟩⟩]) hi hdom hframe (fun _ => id)
          (LWC.good_congr h3 rfl rfl rfl) hsw' (hflags.mono (fun _ => id) rfl rfl rfl ?_ ?_) ?_ ?_
        · simpa [AutoReport] using this
        · intro h1
          exfalso
          have h2 := (hperm E₁ hm).length_eq
          have := hcut.lt
          have := hcut.pos
          simp only [LawfulLengths.abs] at h1 this
          simp only [LawfulLengths.abs] at *
          omega
        · intro X hX
          exact (hdesc E₁ hm X hX).cut hcut'
        · simp only [List.forall_mem_singleton]
          exact ⟨LWC.good_congr hgR rfl rfl rfl, hRsw, .fresh _ _⟩
        · intro oc hoc htr
          obtain ⟨q, hq, hq'⟩ : ∃ q, oc[i]? = some q ∧ q.2 = x := by
            rw [← hoc, List.getElem?_map] at hi
            cases hq : oc[i]? with
            | none => rw [hq] at hi; cases hi
            | some q => rw [hq] at hi; simp only [Option.map_some, Option.some.injEq] at hi; exact ⟨q, rfl, hi⟩
          obtain ⟨o', ho⟩ := Track.moves hι (s := s) htr hq (E := E) (E₁ := E₁) (by rw [hq']) (by rw [hq']) hm hgE.ok (h.swapped x hx) (by rw [hoc]; rfl)
          obtain ⟨k1, k2, k3, k4⟩ := Decomp.separatedConns_facts (m := s'.conns) (b := b) (y := y)
            (conn := ⟨⟨s'.conns.endOf b, true⟩, ⟨t, false⟩⟩) hby
          have hres := ho.cut (hcut'.map (ι := ι)) hb ht hy rfl k1 k2 k3 k4
          exact ⟨o', [(o' + ((H.abs E' s'.inner).map ι).total, { iet := R' })], rfl, hres⟩
      · refine .split rfl rfl (by simp) ?_ h3.ok.valid.ne_nil hgR.ok.valid.ne_nil (List.mem_of_getLast? ht) rfl rfl rfl rfl
        have : E'.top ++ R'.top = E₁.top := f1.symm
        simp only [this]
        exact hperm E₁ hm
      · intro hinv
        obtain ⟨lv, hlv⟩ := hinv.closed
        refine ⟨lv, hlv, ?_⟩
        intro conn hc
        refine ⟨_, rfl, ?_⟩
        simp only [Option.some.injEq] at hc
        have hmem : ({ x with iet := E' } : Comp T) ∈ D.comps.set i ({ x with iet := E' } : Comp T) ++ [({ iet := R' } : Comp T)] :=
          List.mem_append_left _ (List.mem_of_getElem? hset)
        have hcont := hinv.contour hmem (hlv _ hmem) i
        have hyE : y ∉ E'.top := fun h => f5 y h (f7.mem_iff.mp (List.mem_of_head? hy))
        have hyE' : y ∉ E'.bottom := fun h => hyE (h3.ok.valid.perm.mem_iff.mp h)
        have e1 : ∀ l ∈ E'.top, Decomp.crossList (Decomp.separatedConns s'.conns b y conn) ⟨i, l, true⟩ = Decomp.crossList s'.conns ⟨i, l, true⟩ := by
          intro l hl
          have : l ≠ y := by rintro rfl; exact hyE hl
          by_cases hlb : l = b
          · subst hlb
            simp [Decomp.crossList, Decomp.separatedConns, ConnMap.set, this]
          · simp [Decomp.crossList, Decomp.separatedConns, ConnMap.set, this, hlb]
        have e2 : ∀ l ∈ E'.bottom, l ≠ b → Decomp.crossList (Decomp.separatedConns s'.conns b y conn) ⟨i, l, false⟩ = Decomp.crossList s'.conns ⟨i, l, false⟩ := by
          intro l hl hlb
          have : l ≠ y := by rintro rfl; exact hyE' hl
          simp [Decomp.crossList, Decomp.separatedConns, ConnMap.set, this, hlb]
        have e3 : Decomp.crossList (Decomp.separatedConns s'.conns b y conn) ⟨i, b, false⟩ = Decomp.crossList s'.conns ⟨i, b, false⟩ ++ [.conn conn] := by
          simp [Decomp.crossList, Decomp.separatedConns, ConnMap.set, hby]
        simp only at hcont
        rw [hc] at hcont
        rw [flatMap_congr' (fun l hl => e1 l (List.mem_reverse.mp hl))] at hcont
        obtain ⟨bs, hbs⟩ := List.getLast?_eq_some_iff.mp hb
        have hnb := h3.ok.valid.inv.nodup
        simp only [LawfulLengths.abs, AIET.inv, hbs] at hnb
        have e4 : E'.bottom.flatMap (fun l => Decomp.crossList (Decomp.separatedConns s'.conns b y conn) ⟨i, l, false⟩) =
            E'.bottom.flatMap (fun l => Decomp.crossList s'.conns ⟨i, l, false⟩) ++ [.conn conn] := by
          rw [hbs, List.flatMap_append, List.flatMap_append, flatMap_congr' (fun l hl => e2 l (by rw [hbs]; simp [hl]) ?_)]
          · simp [e3]
          · rintro rfl
            rw [List.nodup_append] at hnb
            exact hnb.2.2 l hl l (by simp) rfl
        rw [e4] at hcont
        rw [List.reverse_append, List.map_append, flatMap_crossRev, flatMap_crossRev, List.reverse_reverse]
        unfold Contour at hcont ⊢
        refine (congrArg (fun c : Cycle Side => c.Chain (Follows A₀.top A₀.bottom lv)) (Cycle.coe_eq_coe.mpr ?_)).mp hcont
        rw [List.append_assoc, ← List.cons_append]
        exact List.isRotated_append
    | @nonSeparating _ b t l hirr htop hbot hbt hlen hmerge =>
      obtain ⟨f, g, hf, hg'⟩ := h3.ok.valid.heads
      simp only [LawfulLengths.abs] at hf hg'
      have hokE₁ := hm.ok hgE.ok
      have hnd := hv₁.nodup
      simp only [LawfulLengths.abs, htop, List.nodup_cons] at hnd
      have hft : f ≠ t := by rintro rfl; exact hnd.1 (List.mem_of_head? hf)
      have hbk : b ∈ s'.conns.keys := (hokE₁.dom b (hv₁.perm.mem_iff.mp (by simp [LawfulLengths.abs, hbot]))).2
      have htk : t ∈ s'.conns.keys := (hokE₁.dom t (by simp [htop])).2
      have hfk : f ∈ s'.conns.keys := (h3.ok.dom f (List.mem_of_head? hf)).2
      have hgk : g ∈ s'.conns.keys := (h3.ok.dom g (h3.ok.valid.perm.mem_iff.mp (List.mem_of_head? hg'))).2
      have hmerge' : MergeTop (H.abs E₁ s'.inner) (H.abs E' s'.inner) := hmerge
      have hchain : IsChain b (s'.conns.val b).bottomRight ∧ ∀ t, (s'.conns.val t).topRight = [] := by
        obtain ⟨oc, hoc, htr⟩ := h.track
        obtain ⟨q, hq, hq'⟩ : ∃ q, oc[i]? = some q ∧ q.2 = x := by
          rw [← hoc, List.getElem?_map] at hi
          cases hq : oc[i]? with
          | none => rw [hq] at hi; cases hi
          | some q => rw [hq] at hi; simp only [Option.map_some, Option.some.injEq] at hi; exact ⟨q, rfl, hi⟩
        obtain ⟨o', ho⟩ := Track.moves hι (s := s) htr hq (E := E) (E₁ := E₁) (by rw [hq']) (by rw [hq']) hm hgE.ok (h.swapped x hx) (by rw [hoc]; rfl)
        exact ⟨ho.chain b, ho.topRight⟩
      have hcon := Decomp.nonSeparating_ok (D := { comps := D.comps.set i { x with iet := E' }, lengths := s' }) hset hsw'
        hbk htk hfk hgk hf hg' hbt hft hchain.1 (hchain.2 t)
      have hcon' : Decomp.conclude { comps := D.comps.set i { x with iet := E' }, lengths := s' } i
          ⟨.nonSeparatingConnection, some (b, t), none⟩ =
          Decomp.nonSeparating { comps := D.comps.set i { x with iet := E' }, lengths := s' } i b t := by
        simp only [Decomp.conclude, hcompI, bind, Except.bind]
      refine ⟨_, _, hcon'.trans hcon, and_of ?_ ?_ hframe ?_⟩
      · have := h.build (x' := { x with iet := E' })
          (s' := { s' with conns := Decomp.mergedConns s'.conns b f t ⟨⟨s'.conns.endOf b, true⟩, ⟨t, false⟩⟩ })
          (more := []) (R' := R ++ [⟨⟨s'.conns.endOf b, true⟩, ⟨t, false⟩⟩]) hi hdom hframe (fun _ => id)
          (LWC.good_congr h3 rfl rfl rfl) hsw' (hflags.mono (fun _ => id) rfl rfl rfl ?_ ?_) (by simp) ?_
        · simpa [AutoReport] using this
        · intro h1
          exfalso
          have h2 := (hperm E₁ hm).length_eq
          have h4 := List.length_pos_iff.mpr h3.ok.valid.ne_nil
          simp only [LawfulLengths.abs, htop, List.length_cons] at h1 h2 h4
          omega
        · intro X hX
          exact (hdesc E₁ hm X hX).merge hmerge'
        · intro oc hoc htr
          obtain ⟨q, hq, hq'⟩ : ∃ q, oc[i]? = some q ∧ q.2 = x := by
            rw [← hoc, List.getElem?_map] at hi
            cases hq : oc[i]? with
            | none => rw [hq] at hi; cases hi
            | some q => rw [hq] at hi; simp only [Option.map_some, Option.some.injEq] at hi; exact ⟨q, rfl, hi⟩
          obtain ⟨o', ho⟩ := Track.moves hι (s := s) htr hq (E := E) (E₁ := E₁) (by rw [hq']) (by rw [hq']) hm hgE.ok (h.swapped x hx) (by rw [hoc]; rfl)
          obtain ⟨k1, k2, k3, k4, k5, k6, k7, k8, k9, k10, k11⟩ := Decomp.mergedConns_facts (m := s'.conns) (b := b) (f := f) (t := t)
            (conn := ⟨⟨s'.conns.endOf b, true⟩, ⟨t, false⟩⟩) hbt hft hchain.2
          obtain ⟨δ, hres, -⟩ := ho.merge (MergeTop.map (ι := ι) hmerge') (b := b) (t := t) (f := f) htop (by simp [AIET.map, LawfulLengths.abs, hbot])
            hf rfl k1 k2 k3 k4 k5 k6 k7 k8 k9 k10 k11
          exact ⟨o' + δ, [], rfl, hres⟩
      · refine .merge rfl rfl rfl ?_ h3.ok.valid.ne_nil rfl rfl
        have := hperm E₁ hm
        rw [htop] at this
        exact this
      · intro _
        obtain ⟨oc, hoc, htr⟩ := h.track
        obtain ⟨q, hq, hq'⟩ : ∃ q, oc[i]? = some q ∧ q.2 = x := by
          rw [← hoc, List.getElem?_map] at hi
          cases hq : oc[i]? with
          | none => rw [hq] at hi; cases hi
          | some q => rw [hq] at hi; simp only [Option.map_some, Option.some.injEq] at hi; exact ⟨q, rfl, hi⟩
        obtain ⟨o', ho⟩ := Track.moves hι (s := s) htr hq (E := E) (E₁ := E₁) (by rw [hq']) (by rw [hq']) hm hgE.ok (h.swapped x hx) (by rw [hoc]; rfl)
        obtain ⟨k1, k2, k3, k4, k5, k6, k7, k8, k9, k10, k11⟩ := Decomp.mergedConns_facts (m := s'.conns) (b := b) (f := f) (t := t)
          (conn := ⟨⟨s'.conns.endOf b, true⟩, ⟨t, false⟩⟩) hbt hft hchain.2
        obtain ⟨δ, -, hres⟩ := ho.merge (MergeTop.map (ι := ι) hmerge') (b := b) (t := t) (f := f) htop (by simp [AIET.map, LawfulLengths.abs, hbot])
          hf rfl k1 k2 k3 k4 k5 k6 k7 k8 k9 k10 k11
        obtain ⟨lv, hlv⟩ := ho.closed
        have hres := hres lv hlv
        refine ⟨lv, ?_, ?_⟩
        · intro y hy
          have : y = ({ x with iet := E' } : Comp T) ∨ y ∈ (oc.eraseIdx i).map Prod.snd := by
            rcases mem_set_iff_ne hy with h | ⟨j, hj, hjy⟩
            · exact .inl h
            · right
              rw [← List.eraseIdx_map, hoc]
              exact List.mem_eraseIdx_iff_getElem?.mpr ⟨j, hj, hjy⟩
          rcases this with rfl | hy
          · exact hres _ List.mem_cons_self
          · obtain ⟨q', hq', rfl⟩ := List.mem_map.mp hy
            exact hres (q'.1, (H.abs q'.2.iet s'.inner).map ι) (List.mem_cons_of_mem _ (List.mem_map.mpr ⟨q', hq', rfl⟩))
        · intro conn hc
          simp only [Option.some.injEq] at hc
          subst hc
          refine ⟨_, rfl, ?_⟩
          rw [← List.map_reverse, List.reverse_reverse, flip_flip]
          refine ho.loop (p := (o', (H.abs E₁ s'.inner).map ι)) List.mem_cons_self (hlv _ List.mem_cons_self) i ?_ ?_ ?_ ?_
          · simp [AIET.map, LawfulLengths.abs, hbot]
          · simp [AIET.map, LawfulLengths.abs, htop]
          · have hl : l ≠ [] := by
              rintro rfl
              have h2 := hv₁.perm.length_eq
              have h4 := List.length_pos_iff.mpr h3.ok.valid.ne_nil
              simp only [LawfulLengths.abs, htop, hbot, List.length_cons, List.length_nil] at h2 h4
              omega
            simp [AIET.map, LawfulLengths.abs, hbot, List.dropLast_cons_of_ne_nil hl]
          · simp only [AIET.map, LawfulLengths.abs, htop]
            rw [List.dropLast_cons_of_ne_nil (by exact h3.ok.valid.ne_nil)]
            simp

end

end Verif
