import Verif.Proofs.Print
import Verif.Props.Boundary
import Verif.Props.Render

/-!
# C66: printing
-/

namespace Verif

set_option linter.unusedSectionVars false

variable {σ T ε : Type} [CommRing T] [LinearOrder T] [IsStrictOrderedRing T] {O : LengthsOps σ T} {d : ℕ} {c : T →+ (Fin d → ℚ)}
variable {name : Label → List Char}

/-- The names given by `sample::Lengths`. -/
theorem names_render : Names render := ⟨fun a b => (C29_render_injective a b).mp, fun a => (C29_render_letters a).2⟩

/-- The fields of the steps that have been reported, and that components are never dropped. -/
theorem DReach.fields (H : LawfulLengths O c ε) {L : PPL} (hL : L.Lawful) {E : IET T} {s : σ} (hE : H.Ok E s) {D : Decomp σ T}
    {steps : List DStep} (h : DReach L O E s D steps) : ∀ st ∈ steps,
    (st.result = .separatingConnection ∧ ∃ conn i, st.connection = some conn ∧ st.additional = some i ∧ i < D.comps.length) ∨
    (st.result = .nonSeparatingConnection ∧ ∃ conn, st.connection = some conn ∧ st.additional = none) ∨
    (st.result ≠ .separatingConnection ∧ st.result ≠ .nonSeparatingConnection ∧ st.connection = none ∧ st.additional = none) := by
  induction h with
  | init _ => intro st hst; cases hst
  | @step D D' steps step fuel limit i h hr ih =>
    obtain ⟨x, -, hx, -⟩ := h.effect hL H hE hr
    have hlen : D.comps.length ≤ D'.comps.length := by
      generalize hD : D'.comps = cs at hx
      cases hx <;> simp
    intro st hst
    rcases List.mem_append.mp hst with hst | hst
    · rcases ih st hst with ⟨h1, conn, j, h2, h3, h4⟩ | h | h
      · exact .inl ⟨h1, conn, j, h2, h3, by omega⟩
      · exact .inr (.inl h)
      · exact .inr (.inr h)
    · obtain rfl : st = step := by simpa using hst
      generalize hD : D'.comps = cs at hx
      cases hx with
      | same h1 h2 _ h3 h4 => exact .inr (.inr ⟨h3, h4, h1, h2⟩)
      | split h1 h2 h3 => exact .inl ⟨h1, _, _, h2, h3, by simp⟩
      | merge h1 h2 h3 => exact .inr (.inl ⟨h1, _, h2, h3⟩)

/-- The perimeters of components are not empty. -/
theorem DReach.perimeter_ne (H : LawfulLengths O c ε) {L : PPL} (hL : L.Lawful) {E : IET T} {s : σ} (hE : H.Ok E s) {D : Decomp σ T}
    {steps : List DStep} (h : DReach L O E s D steps) {i : ℕ} (hi : i < D.comps.length) : ∃ p, D.perimeter i = .ok p ∧ p ≠ [] := by
  obtain ⟨p, top, bottom, _, hp, ht, _, hf, -⟩ := C50_perimeter H hL hE h hi
  refine ⟨p, hp, ?_⟩
  rintro rfl
  have hinv := h.inv hL H (ι := AddMonoidHom.id T) (fun _ _ h => h) hE
  obtain ⟨x, hx⟩ : ∃ x, D.comps[i]? = some x := ⟨_, List.getElem?_eq_getElem hi⟩
  have hxm := List.mem_of_getElem? hx
  have htop : top = [] := (by simpa using hf.symm : bottom = [] ∧ top = []).2
  have hv := (hinv.good x hxm).ok.valid
  have hne : x.iet.top ≠ [] := hv.ne_nil
  simp only [Decomp.topContour, Decomp.comp, hx, Comp.topContour, hinv.swapped x hxm, bind, Except.bind, pure, Except.pure, htop] at ht
  injection ht with ht
  simp at ht
  exact hne ht

theorem Decomp.printComponent_ok {D : Decomp σ T} {i : ℕ} {p : List Side} (hp : D.perimeter i = .ok p) :
    D.printComponent name i = .ok (joinText [' '] (p.map (Side.print name))) := by
  simp only [Decomp.printComponent, hp, bind, Except.bind, pure, Except.pure]

theorem DReach.print_ok (H : LawfulLengths O c ε) {L : PPL} (hL : L.Lawful) {E : IET T} {s : σ} (hE : H.Ok E s) {D : Decomp σ T}
    {steps : List DStep} (h : DReach L O E s D steps) : ∃ ps : List (List Side), ps.length = D.comps.length ∧ (∀ p ∈ ps, p ≠ []) ∧
    (∀ i < D.comps.length, ∃ p, D.perimeter i = .ok p ∧ ps[i]? = some p) ∧
    D.print name = .ok ("DynamicalDecomposition(".toList ++ joinText [',', ' '] (ps.map (fun p => joinText [' '] (p.map (Side.print name)))) ++ [')']) := by
  classical
  let f : ℕ → List Side := fun i => match D.perimeter i with | .ok p => p | .error _ => []
  have hf : ∀ i < D.comps.length, D.perimeter i = .ok (f i) ∧ f i ≠ [] := by
    intro i hi
    obtain ⟨p, hp, hne⟩ := h.perimeter_ne H hL hE hi
    simp only [f, hp]
    exact ⟨trivial, hne⟩
  refine ⟨(List.range D.comps.length).map f, by simp, ?_, fun i hi => ⟨f i, (hf i hi).1, by simp [hi]⟩, ?_⟩
  · intro p hp
    obtain ⟨i, hi, rfl⟩ := List.mem_map.mp hp
    exact (hf i (List.mem_range.mp hi)).2
  · have := mapM_ok (f := fun i => D.printComponent name i) (g := fun i => joinText [' '] ((f i).map (Side.print name)))
      (l := List.range D.comps.length) (fun i hi => Decomp.printComponent_ok (hf i (List.mem_range.mp hi)).1)
    simp only [Decomp.print, this, bind, Except.bind, pure, Except.pure, List.map_map]
    rfl

/-! ### Printing returns -/

/-- **C66** In every reachable state, printing the decomposition, each of its components and each of the steps that have been reported up
to now returns. -/
theorem C66_returns (H : LawfulLengths O c ε) {L : PPL} (hL : L.Lawful) {E : IET T} {s : σ} (hE : H.Ok E s) {D : Decomp σ T}
    {steps : List DStep} (h : DReach L O E s D steps) (name : Label → List Char) : (∃ t, D.print name = .ok t) ∧
    (∀ i < D.comps.length, ∃ t, D.printComponent name i = .ok t) ∧ ∀ st ∈ steps, ∃ t, st.print name D = .ok t := by
  have hc : ∀ i < D.comps.length, ∃ t, D.printComponent name i = .ok t := fun i hi => by
    obtain ⟨p, hp, -⟩ := h.perimeter_ne H hL hE hi
    exact ⟨_, Decomp.printComponent_ok hp⟩
  obtain ⟨ps, -, -, -, hp⟩ := h.print_ok H hL hE (name := name)
  refine ⟨⟨_, hp⟩, hc, fun st hst => ?_⟩
  rcases h.fields H hL hE st hst with ⟨h1, conn, i, h2, h3, h4⟩ | ⟨h1, conn, h2, h3⟩ | ⟨h1, h2, -⟩
  · obtain ⟨t, ht⟩ := hc i h4
    simp only [DStep.print, h1, h2, h3, ht, bind, Except.bind, pure, Except.pure]
    exact ⟨_, rfl⟩
  · simp only [DStep.print, h1, h2]
    exact ⟨_, rfl⟩
  · unfold DStep.print
    split
    all_goals first | exact ⟨_, rfl⟩ | contradiction

/-- **C66** Printing an IET returns. -/
theorem C66_iet_returns (H : LawfulLengths O c ε) {E : IET T} {s : σ} (hE : H.Ok E s) (name : Label → List Char) (text : T → List Char) :
    ∃ t, E.print name text O s = .ok t := by
  have := mapM_ok (f := fun a => (do return printTop name text a (← O.get a s) : M (List Char))) (g := fun a => printTop name text a (H.len s a))
    (l := E.top) (fun a ha => by simp only [H.get_spec s a hE.inv (hE.dom a ha), bind, Except.bind, pure, Except.pure])
  simp only [bind, Except.bind, pure, Except.pure] at this
  simp only [IET.print, this, bind, Except.bind, pure, Except.pure]
  exact ⟨_, rfl⟩

/-! ### What is printed can be read off the text -/

/-- **C66** Two components with the same text have the same perimeter. -/
theorem C66_component (N : Names name) {σ' T' : Type} {D : Decomp σ T} {D' : Decomp σ' T'} {i j : ℕ} {t : List Char} {p p' : List Side}
    (h : D.printComponent name i = .ok t) (h' : D'.printComponent name j = .ok t) (hp : D.perimeter i = .ok p) (hp' : D'.perimeter j = .ok p') :
    p.map Side.bare = p'.map Side.bare := by
  rw [Decomp.printComponent_ok hp] at h
  simp only [Decomp.printComponent, hp', bind, Except.bind, pure, Except.pure] at h'
  injection h with h
  injection h' with h'
  exact (sides_split N (ch := ')') (r := []) (r' := []) (.inr rfl) (.inr rfl) (by rw [h, h'])).1

/-- **C66** Two reachable decompositions with the same text have the same number of components, and their components have the same
perimeters. -/
theorem C66_decomposition (N : Names name) {σ' T' ε' : Type} [CommRing T'] [LinearOrder T'] [IsStrictOrderedRing T'] {O' : LengthsOps σ' T'} {d' : ℕ}
    {c' : T' →+ (Fin d' → ℚ)} (H : LawfulLengths O c ε) (H' : LawfulLengths O' c' ε') {L L' : PPL} (hL : L.Lawful) (hL' : L'.Lawful)
    {E : IET T} {s : σ} (hE : H.Ok E s) {E' : IET T'} {s' : σ'} (hE' : H'.Ok E' s') {D : Decomp σ T} {D' : Decomp σ' T'} {steps steps' : List DStep}
    (h : DReach L O E s D steps) (h' : DReach L' O' E' s' D' steps') {t : List Char} (hp : D.print name = .ok t) (hp' : D'.print name = .ok t) :
    D.comps.length = D'.comps.length ∧
    ∀ i < D.comps.length, ∃ p p', D.perimeter i = .ok p ∧ D'.perimeter i = .ok p' ∧ p.map Side.bare = p'.map Side.bare := by
  obtain ⟨ps, l1, n1, q1, e1⟩ := h.print_ok H hL hE (name := name)
  obtain ⟨ps', l2, n2, q2, e2⟩ := h'.print_ok H' hL' hE' (name := name)
  rw [hp] at e1
  rw [hp'] at e2
  have e := e1.symm.trans e2
  injection e with e
  simp only [List.append_assoc] at e
  obtain ⟨e3, -⟩ := components_split N n1 n2 (List.append_cancel_left e)
  have hl : D.comps.length = D'.comps.length := by
    rw [← l1, ← l2]
    simpa using congrArg List.length e3
  refine ⟨hl, fun i hi => ?_⟩
  obtain ⟨p, a1, a2⟩ := q1 i hi
  obtain ⟨p', b1, b2⟩ := q2 i (hl ▸ hi)
  refine ⟨p, p', a1, b1, ?_⟩
  have := congrArg (fun l => l[i]?) e3
  simpa [a2, b2] using this

/-- **C66** Two steps that have been reported and have the same text have the same result and the same connection. -/
theorem C66_step (N : Names name) {σ' T' ε' : Type} [CommRing T'] [LinearOrder T'] [IsStrictOrderedRing T'] {O' : LengthsOps σ' T'} {d' : ℕ}
    {c' : T' →+ (Fin d' → ℚ)} (H : LawfulLengths O c ε) (H' : LawfulLengths O' c' ε') {L L' : PPL} (hL : L.Lawful) (hL' : L'.Lawful)
    {E : IET T} {s : σ} (hE : H.Ok E s) {E' : IET T'} {s' : σ'} (hE' : H'.Ok E' s') {D : Decomp σ T} {D' : Decomp σ' T'} {steps steps' : List DStep}
    (h : DReach L O E s D steps) (h' : DReach L' O' E' s' D' steps') {st st' : DStep} (hst : st ∈ steps) (hst' : st' ∈ steps') {t : List Char}
    (hp : st.print name D = .ok t) (hp' : st'.print name D' = .ok t) : st.result = st'.result ∧ st.connection = st'.connection := by
  have f := h.fields H hL hE st hst
  have f' := h'.fields H' hL' hE' st' hst'
  have key : ∀ {σ T : Type} {D : Decomp σ T} {st : DStep} {n : ℕ},
      (st.result = .separatingConnection ∧ ∃ conn i, st.connection = some conn ∧ st.additional = some i ∧ i < n) ∨
      (st.result = .nonSeparatingConnection ∧ ∃ conn, st.connection = some conn ∧ st.additional = none) ∨
      (st.result ≠ .separatingConnection ∧ st.result ≠ .nonSeparatingConnection ∧ st.connection = none ∧ st.additional = none) →
      st.print name D = .ok t → (st.result = .separatingConnection ∧ ∃ conn q, st.connection = some conn ∧ t = "SEPARATING_CONNECTION(".toList ++ (conn.print name ++ q)) ∨
        (st.result = .nonSeparatingConnection ∧ ∃ conn q, st.connection = some conn ∧ t = "NON_SEPARATING_CONNECTION(".toList ++ (conn.print name ++ q)) ∨
        (st.connection = none ∧ (st.result, t) ∈ [(DResult.limitReached, "LIMIT_REACHED".toList), (.cylinder, "CYLINDER".toList), (.keane, "KEANE".toList),
          (.withoutPeriodicTrajectoryBoshernitzan, "WITHOUT_PERIODIC_TRAJECTORY_BOSHERNITZAN".toList),
          (.withoutPeriodicTrajectoryAutoSimilar, "WITHOUT_PERIODIC_TRAJECTORY_AUTO_SIMILAR".toList)]) := by
    intro σ T D st n hf hp
    rcases hf with ⟨h1, conn, i, h2, h3, -⟩ | ⟨h1, conn, h2, -⟩ | ⟨h1, h2, h3, -⟩
    · refine .inl ⟨h1, conn, ?_⟩
      cases hq : D.printComponent name i with
      | error e => simp only [DStep.print, h1, h2, h3, hq, bind, Except.bind] at hp; cases hp
      | ok q =>
        simp only [DStep.print, h1, h2, h3, hq, bind, Except.bind, pure, Except.pure] at hp
        injection hp with hp
        exact ⟨[',', ' '] ++ (q ++ [')']), h2, by rw [← hp]; simp only [List.append_assoc]⟩
    · refine .inr (.inl ⟨h1, conn, ?_⟩)
      simp only [DStep.print, h1, h2] at hp
      injection hp with hp
      exact ⟨[')'], h2, by rw [← hp]; simp only [List.append_assoc]⟩
    · refine .inr (.inr ⟨h3, ?_⟩)
      unfold DStep.print at hp
      cases hr : st.result <;> rw [hr] at hp h1 h2 <;> first | contradiction | (injection hp with hp; rw [← hp]; simp)
  have hd : ∀ (r : DResult) (t : List Char), (r, t) ∈ [(DResult.limitReached, "LIMIT_REACHED".toList), (.cylinder, "CYLINDER".toList), (.keane, "KEANE".toList),
          (.withoutPeriodicTrajectoryBoshernitzan, "WITHOUT_PERIODIC_TRAJECTORY_BOSHERNITZAN".toList),
          (.withoutPeriodicTrajectoryAutoSimilar, "WITHOUT_PERIODIC_TRAJECTORY_AUTO_SIMILAR".toList)] → '(' ∉ t := by
    intro r t h
    fin_cases h <;> decide
  rcases key f hp with ⟨a1, k, q, a2, a3⟩ | ⟨a1, k, q, a2, a3⟩ | ⟨a1, a2⟩ <;>
    rcases key f' hp' with ⟨b1, k', q', b2, b3⟩ | ⟨b1, k', q', b2, b3⟩ | ⟨b1, b2⟩
  · rw [a3] at b3
    obtain ⟨e, -⟩ := Conn.print_split N (List.append_cancel_left b3)
    exact ⟨by rw [a1, b1], by rw [a2, b2, e]⟩
  · rw [a3] at b3; simp at b3
  · exact absurd (by rw [a3]; simp) (hd _ _ b2)
  · rw [a3] at b3; simp at b3
  · rw [a3] at b3
    obtain ⟨e, -⟩ := Conn.print_split N (List.append_cancel_left b3)
    exact ⟨by rw [a1, b1], by rw [a2, b2, e]⟩
  · exact absurd (by rw [a3]; simp) (hd _ _ b2)
  · exact absurd (by rw [b3]; simp) (hd _ _ a2)
  · exact absurd (by rw [b3]; simp) (hd _ _ a2)
  · refine ⟨?_, by rw [a1, b1]⟩
    clear hp hp' key hd f f' a1 b1
    generalize st.result = r at a2
    generalize st'.result = r' at b2
    simp only [List.mem_cons, List.not_mem_nil, or_false, Prod.mk.injEq] at a2 b2
    rcases a2 with ⟨rfl, rfl⟩ | ⟨rfl, rfl⟩ | ⟨rfl, rfl⟩ | ⟨rfl, rfl⟩ | ⟨rfl, rfl⟩ <;>
      rcases b2 with ⟨rfl, e⟩ | ⟨rfl, e⟩ | ⟨rfl, e⟩ | ⟨rfl, e⟩ | ⟨rfl, e⟩ <;> first | rfl | (exact absurd e (by decide))

/-- C66: what is printed for a step of induction tells its result, nothing else. -/
theorem C66_inductionStep {T' : Type} (x : InductionStep T) (y : InductionStep T') : x.print = y.print ↔ x.result = y.result := by
  unfold InductionStep.print
  cases x.result <;> cases y.result <;> simp

/-- C66: different labels print differently. -/
theorem C66_label {a b : Label} (h : printLabel a = printLabel b) : a = b := by
  simp only [printLabel, List.append_assoc] at h
  have h1 := List.append_cancel_right (List.append_cancel_left h)
  rw [← Nat.ofDigitChars_ten_toDigits (n := a), ← Nat.ofDigitChars_ten_toDigits (n := b), h1]

example : printLabel 12 = "Label(12)".toList := by decide
example : ({ result := .cylinder } : InductionStep ℚ).print = "CYLINDER".toList := rfl

/-- **C66** Two IETs with the same text have the same labels on the top and on the bottom, and their lengths are printed in the same way,
provided that the texts of lengths do not contain brackets. -/
theorem C66_iet (N : Names name) {σ' T' : Type} {O' : LengthsOps σ' T'} {text : T → List Char} {text' : T' → List Char}
    (hT : ∀ x, ']' ∉ text x) (hT' : ∀ x, ']' ∉ text' x) {E : IET T} {s : σ} {E' : IET T'} {s' : σ'} {t : List Char}
    (h : E.print name text O s = .ok t) (h' : E'.print name text' O' s' = .ok t) :
    E.top = E'.top ∧ E.bottom = E'.bottom ∧
    ∀ a ∈ E.top, ∃ x x', O.get a s = .ok x ∧ O'.get a s' = .ok x' ∧ text x = text' x' := by
  -- The lengths on the top, as texts.
  have get : ∀ {σ T : Type} (O : LengthsOps σ T) (s : σ) (text : T → List Char) (l : List Label) (r : List (List Char)),
      l.mapM (fun a => (do return printTop name text a (← O.get a s) : M (List Char))) = .ok r →
      ∃ f : Label → List Char, r = l.map (fun a => printTop name id a (f a)) ∧ ∀ a ∈ l, ∃ x, O.get a s = .ok x ∧ text x = f a := by
    intro σ T O s text l
    refine fun r hr => ⟨fun a => match O.get a s with | .ok x => text x | .error _ => [], ?_⟩
    induction l generalizing r with
    | nil => cases hr; exact ⟨rfl, fun a ha => by cases ha⟩
    | cons a l ih =>
      rw [List.mapM_cons] at hr
      cases hg : O.get a s with
      | error e => simp only [hg, bind, Except.bind] at hr; cases hr
      | ok x =>
        cases hl : l.mapM (fun a => (do return printTop name text a (← O.get a s) : M (List Char))) with
        | error e =>
          simp only [bind, Except.bind, pure, Except.pure] at hr hl
          simp only [hg, hl] at hr; cases hr
        | ok r' =>
          obtain ⟨e1, e2⟩ := ih r' hl
          simp only [bind, Except.bind, pure, Except.pure] at hr hl
          simp only [hg, hl] at hr
          injection hr with hr
          refine ⟨?_, ?_⟩
          · rw [← hr, e1, List.map_cons]
            simp only [hg]
            rfl
          · intro b hb
            rcases List.mem_cons.mp hb with rfl | hb
            · exact ⟨x, hg, by simp only [hg]⟩
            · exact e2 b hb
  have unfolded : ∀ {σ T : Type} (O : LengthsOps σ T) (s : σ) (text : T → List Char) (E : IET T), E.print name text O s = .ok t →
      ∃ f : Label → List Char, (∀ a ∈ E.top, ∃ x, O.get a s = .ok x ∧ text x = f a) ∧
        t = joinText [' '] ((E.top.map (fun a => (a, f a))).map (fun q => printTop name id q.1 q.2)) ++
          ([' ', '/', ' '] ++ joinText [' '] (E.bottom.map (printBottom name))) := by
    intro σ T O s text E h
    cases hr : E.top.mapM (fun a => (do return printTop name text a (← O.get a s) : M (List Char))) with
    | error e =>
      simp only [IET.print, bind, Except.bind, pure, Except.pure] at h hr
      simp only [hr] at h; cases h
    | ok r =>
      obtain ⟨f, e1, e2⟩ := get O s text E.top r hr
      simp only [IET.print, bind, Except.bind, pure, Except.pure] at h hr
      simp only [hr] at h
      injection h with h
      refine ⟨f, e2, ?_⟩
      rw [← h, e1, List.map_map, List.append_assoc]
      rfl
  obtain ⟨f, f1, f2⟩ := unfolded O s text E h
  obtain ⟨f', f1', f2'⟩ := unfolded O' s' text' E' h'
  rw [f2] at f2'
  -- Restrict to texts without brackets to be able to read them.
  let S := {q : Label × List Char // ']' ∉ q.2}
  let l : List S := E.top.attach.map (fun a => ⟨(a.1, f a.1), by obtain ⟨x, -, e⟩ := f1 a.1 a.2; rw [← e]; exact hT x⟩)
  let l' : List S := E'.top.attach.map (fun a => ⟨(a.1, f' a.1), by obtain ⟨x, -, e⟩ := f1' a.1 a.2; rw [← e]; exact hT' x⟩)
  have hl : l.map Subtype.val = E.top.map (fun a => (a, f a)) := by
    simp only [l, List.map_map]
    exact List.attach_map_val (l := E.top) (f := fun a => (a, f a))
  have hl' : l'.map Subtype.val = E'.top.map (fun a => (a, f' a)) := by
    simp only [l', List.map_map]
    exact List.attach_map_val (l := E'.top) (f := fun a => (a, f' a))
  have read : ∀ (x y : S) (r r' : List Char), printTop name id x.1.1 x.1.2 ++ r = printTop name id y.1.1 y.1.2 ++ r' → x.1 = y.1 ∧ r = r' := by
    intro x y r r' e
    simp only [printTop, List.append_assoc, List.cons_append, List.nil_append, List.cons.injEq, true_and, id] at e
    obtain ⟨e1, -, e2⟩ := N.split (by decide) (by decide) e
    simp only [List.cons.injEq, true_and] at e2
    obtain ⟨e3, -, e4⟩ := split_at (p := fun ch => ch != ']') (fun ch hc => by simp only [bne_iff_ne]; rintro rfl; exact x.2 hc)
      (fun ch hc => by simp only [bne_iff_ne]; rintro rfl; exact y.2 hc) (by decide) (by decide) e2
    exact ⟨Prod.ext e1 e3, e4⟩
  have stop : ∀ (q r : List Char), (∀ (x : S) q', [' ', '/', ' '] ++ r ≠ printTop name id x.1.1 x.1.2 ++ q') ∧
      ∀ (x : S) q', [' ', '/', ' '] ++ r ≠ [' '] ++ printTop name id x.1.1 x.1.2 ++ q' := by
    intro q r
    refine ⟨fun x q' e => ?_, fun x q' e => ?_⟩ <;> simp [printTop] at e
  rw [← hl, ← hl', List.map_map (l := l), List.map_map (l := l')] at f2'
  obtain ⟨e1, e2⟩ := joinText_split (f := (fun q : Label × List Char => printTop name id q.1 q.2) ∘ Subtype.val) (g := (Subtype.val : S → _)) read
    (stop [] _).1 (stop [] _).2 (stop [] _).1 (stop [] _).2 f2'
  rw [hl, hl'] at e1
  have htop : E.top = E'.top := by
    have := congrArg (List.map Prod.fst) e1
    simp only [List.map_map] at this
    exact (List.map_id _).symm.trans (this.trans (List.map_id _))
  have e3 := List.append_cancel_left e2
  obtain ⟨e4, -⟩ := joinText_split (f := printBottom name) (g := id) (sep := [' ']) (r := []) (r' := []) (xs := E.bottom) (ys := E'.bottom)
    (fun x y r r' e => by
      simp only [printBottom, List.append_assoc, List.cons_append, List.nil_append, List.cons.injEq, true_and] at e
      obtain ⟨e1, -, e2⟩ := N.split (by decide) (by decide) e
      exact ⟨e1, e2⟩)
    (by simp [printBottom]) (by simp) (by simp [printBottom]) (by simp) (by simpa using e3)
  refine ⟨htop, by simpa using e4, fun a ha => ?_⟩
  obtain ⟨x, hx, hx'⟩ := f1 a ha
  obtain ⟨y, hy, hy'⟩ := f1' a (htop ▸ ha)
  refine ⟨x, y, hx, hy, ?_⟩
  rw [hx', hy']
  rw [← htop] at e1
  have := (List.map_inj_left.mp e1) a ha
  simpa using this

/-! ### Examples -/

set_option maxRecDepth 20000 in
/-- The texts at the end of the run on integers, of the decomposition and of the steps. -/
example (L : PPL) : (Decomp.runFrom L (SLengths.ops intArith) Examples.intIET Examples.intState 20 Examples.intCalls).bind (fun r => do
    return (← r.2.print (fun l => [letter l]), ← r.1.mapM (fun st => st.print (fun l => [letter l]) r.2))) =
    .ok ("DynamicalDecomposition([c] [c+ ⚯ b-] [b+ ⚯ c-] -[c] [b- ⚯ c+] [a- ⚯ d+], [d] [d+ ⚯ a-] -[d] [c- ⚯ b+])".toList,
      ["LIMIT_REACHED".toList, "NON_SEPARATING_CONNECTION([c+ ⚯ b-])".toList, "NON_SEPARATING_CONNECTION([d+ ⚯ a-])".toList,
        "SEPARATING_CONNECTION([b+ ⚯ c-], [d] [d+ ⚯ a-] -[d] [c- ⚯ b+])".toList, "CYLINDER".toList, "CYLINDER".toList]) := rfl

/-- The text of the IET it started from. -/
example : Examples.intIET.print (fun l => [letter l]) (fun n : ℤ => (toString n).toList) (SLengths.ops intArith) Examples.intState =
    .ok "[a: 50] [b: 5] [c: 3] [d: 7] / [d] [c] [b] [a]".toList := by decide +kernel

/-- Printing after this run with the names given by `sample::Lengths`. -/
example {L : PPL} (hL : L.Lawful) : ∃ steps D, DReach L (SLengths.ops intArith) Examples.intIET Examples.intState D steps ∧ D.comps.length = 2 ∧
    (∃ t, D.print render = .ok t) ∧ ∀ st ∈ steps, ∃ t, st.print render D = .ok t := by
  obtain ⟨steps, D, h1, -, h3⟩ := Examples.int_decomposition L
  obtain ⟨h4, -, h5⟩ := C66_returns Examples.hInt hL Examples.int_ok h1 render
  exact ⟨steps, D, h1, by simpa using congrArg List.length h3, h4, h5⟩

/-- Without names that are told apart, different IETs have the same text. -/
example : ∃ (name : Label → List Char) (E E' : IET ℤ), E.bottom ≠ E'.bottom ∧
    E.print name (fun n => (toString n).toList) (SLengths.ops intArith) Examples.intState =
      E'.print name (fun n => (toString n).toList) (SLengths.ops intArith) Examples.intState :=
  ⟨fun _ => ['x'], Examples.intIET, { Examples.intIET with bottom := [2, 3, 1, 0] }, by decide, by decide +kernel⟩

/-- A decomposition step without the fields that belong to its result is undefined, see C66_returns. -/
example (D : Decomp (SLengths ℤ) ℤ) : DStep.print render D { result := .nonSeparatingConnection } = .error .ub := rfl

end Verif
