import Verif.Model.Print
import Verif.SpecPrint
import Verif.Proofs.Boundary

/-!
# Reading printed texts
-/

namespace Verif

theorem split_at {p : Char → Bool} : ∀ {n n' : List Char} {c c' : Char} {r r' : List Char}, (∀ ch ∈ n, p ch = true) → (∀ ch ∈ n', p ch = true) →
    p c = false → p c' = false → n ++ c :: r = n' ++ c' :: r' → n = n' ∧ c = c' ∧ r = r'
  | [], [], c, c', r, r', _, _, _, _, h => by
    simp only [List.nil_append] at h
    injection h with h1 h2
    exact ⟨rfl, h1, h2⟩
  | [], y :: n', c, c', r, r', _, h2, h3, _, h => by
    simp only [List.nil_append, List.cons_append] at h
    injection h with h1 _
    have := h2 y (by simp)
    rw [← h1, h3] at this; cases this
  | x :: n, [], c, c', r, r', h1, _, _, h4, h => by
    simp only [List.nil_append, List.cons_append] at h
    injection h with h0 _
    have := h1 x (by simp)
    rw [h0, h4] at this; cases this
  | x :: n, y :: n', c, c', r, r', h1, h2, h3, h4, h => by
    simp only [List.cons_append] at h
    injection h with h5 h6
    obtain ⟨e1, e2, e3⟩ := split_at (fun ch hc => h1 ch (by simp [hc])) (fun ch hc => h2 ch (by simp [hc])) h3 h4 h6
    exact ⟨by rw [h5, e1], e2, e3⟩

section

variable {name : Label → List Char}

theorem Names.split (N : Names name) {a b : Label} {c c' : Char} {r r' : List Char} (hc : c.isAlpha = false) (hc' : c'.isAlpha = false)
    (h : name a ++ c :: r = name b ++ c' :: r') : a = b ∧ c = c' ∧ r = r' := by
  obtain ⟨h1, h2⟩ := split_at (N.letters a) (N.letters b) hc hc' h
  exact ⟨N.injective _ _ h1, h2⟩

theorem sign_alpha (b : Bool) : (if b then '+' else '-').isAlpha = false := by cases b <;> decide

theorem sign_inj {b b' : Bool} (h : (if b then '+' else '-') = (if b' then '+' else '-')) : b = b' := by
  cases b <;> cases b' <;> first | rfl | (exact absurd h (by decide))

theorem Sep.print_split (N : Names name) {x y : Sep} {r r' : List Char} (h : x.print name ++ r = y.print name ++ r') : x = y ∧ r = r' := by
  simp only [Sep.print, List.append_assoc, List.singleton_append] at h
  obtain ⟨h1, h2, h3⟩ := N.split (sign_alpha _) (sign_alpha _) h
  have := sign_inj h2
  cases x; cases y
  simp_all

theorem Conn.print_split (N : Names name) {x y : Conn} {r r' : List Char} (h : x.print name ++ r = y.print name ++ r') : x = y ∧ r = r' := by
  simp only [Conn.print, List.append_assoc, List.cons_append, List.nil_append, List.cons.injEq, true_and] at h
  obtain ⟨h1, h2⟩ := Sep.print_split N h
  simp only [List.cons.injEq, true_and] at h2
  obtain ⟨h3, h4⟩ := Sep.print_split N h2
  simp only [List.cons.injEq, true_and] at h4
  cases x; cases y
  simp_all

theorem Side.print_split (N : Names name) {x y : Side} {r r' : List Char} (h : x.print name ++ r = y.print name ++ r') :
    x.bare = y.bare ∧ r = r' := by
  have mixed : ∀ (g : HalfEdge) (k : Conn) (q q' : List Char), g.print name ++ q ≠ k.print name ++ q' := by
    intro g k q q' e
    rcases hb : g.top with _ | _
    · simp only [HalfEdge.print, Conn.print, Sep.print, hb, List.append_assoc, List.singleton_append, List.cons_append, List.nil_append,
        List.cons.injEq, true_and, Bool.false_eq_true, if_false] at e
      obtain ⟨-, h2, -⟩ := N.split (by decide) (sign_alpha _) e
      rcases hk : k.source.parallel with _ | _ <;> rw [hk] at h2 <;> exact absurd h2 (by decide)
    · simp [HalfEdge.print, Conn.print, hb] at e
  match x, y with
  | .conn k, .conn k' =>
    obtain ⟨h1, h2⟩ := Conn.print_split N (x := k) (y := k') h
    exact ⟨by rw [h1], h2⟩
  | .edge g, .conn k => exact absurd h (mixed g k r r')
  | .conn k, .edge g => exact absurd h.symm (mixed g k r' r)
  | .edge g, .edge g' =>
    simp only [Side.print, HalfEdge.print] at h
    rcases hb : g.top with _ | _ <;> rcases hb' : g'.top with _ | _ <;>
      simp only [hb, hb', List.append_assoc, List.singleton_append, List.cons_append, List.nil_append,
        List.cons.injEq, true_and, Bool.false_eq_true, if_false, if_true] at h
    · obtain ⟨h1, -, h3⟩ := N.split (by decide) (by decide) h
      exact ⟨by simp [Side.bare, h1, hb, hb'], h3⟩
    · exact absurd h.1 (by decide)
    · exact absurd h.1 (by decide)
    · obtain ⟨h1, -, h3⟩ := N.split (by decide) (by decide) h
      exact ⟨by simp [Side.bare, h1, hb, hb'], h3⟩

end

/-- Texts joined by a separator can be read when each of them can be read, and what follows is neither one of them nor the separator
followed by one of them. -/
theorem joinText_split {α β : Type} {f : α → List Char} {g : α → β} {sep : List Char}
    (hf : ∀ x y r r', f x ++ r = f y ++ r' → g x = g y ∧ r = r') : ∀ {xs ys : List α} {r r' : List Char},
    (∀ x q, r ≠ f x ++ q) → (∀ x q, r ≠ sep ++ f x ++ q) → (∀ x q, r' ≠ f x ++ q) → (∀ x q, r' ≠ sep ++ f x ++ q) →
    joinText sep (xs.map f) ++ r = joinText sep (ys.map f) ++ r' → xs.map g = ys.map g ∧ r = r' := by
  intro xs
  induction xs with
  | nil =>
    intro ys r r' h1 h2 h3 h4 h
    match ys with
    | [] => exact ⟨rfl, by simpa [joinText] using h⟩
    | [y] => exact absurd (by simpa [joinText] using h) (h1 y r')
    | y :: z :: ys =>
      refine absurd ?_ (h1 y (sep ++ joinText sep ((z :: ys).map f) ++ r'))
      simpa [joinText, List.append_assoc] using h
  | cons x xs ih =>
    intro ys r r' h1 h2 h3 h4 h
    match ys with
    | [] =>
      match xs with
      | [] => exact absurd (by simpa [joinText] using h.symm) (h3 x r)
      | z :: xs =>
        refine absurd ?_ (h3 x (sep ++ joinText sep ((z :: xs).map f) ++ r))
        simpa [joinText, List.append_assoc] using h.symm
    | y :: ys =>
      have head : ∀ (z : α) (zs : List α), ∃ q, joinText sep ((z :: zs).map f) = f z ++ q := by
        intro z zs
        cases zs with
        | nil => exact ⟨[], by simp [joinText]⟩
        | cons w ws => exact ⟨sep ++ joinText sep ((w :: ws).map f), by simp [joinText, List.append_assoc]⟩
      match xs, ys with
      | [], [] =>
        obtain ⟨e1, e2⟩ := hf _ _ _ _ (by simpa [joinText] using h)
        exact ⟨by simp [e1], e2⟩
      | [], z :: ys =>
        obtain ⟨q, hq⟩ := head z ys
        obtain ⟨-, e2⟩ := hf x y r (sep ++ joinText sep ((z :: ys).map f) ++ r') (by simpa [joinText, List.append_assoc] using h)
        rw [hq] at e2
        exact absurd (by rw [e2]; simp [List.append_assoc]) (h2 z (q ++ r'))
      | z :: xs, [] =>
        obtain ⟨q, hq⟩ := head z xs
        obtain ⟨-, e2⟩ := hf y x r' (sep ++ joinText sep ((z :: xs).map f) ++ r) (by simpa [joinText, List.append_assoc] using h.symm)
        rw [hq] at e2
        exact absurd (by rw [e2]; simp [List.append_assoc]) (h4 z (q ++ r))
      | z :: xs, w :: ys =>
        obtain ⟨e1, e2⟩ := hf x y (sep ++ (joinText sep ((z :: xs).map f) ++ r)) (sep ++ (joinText sep ((w :: ys).map f) ++ r'))
          (by simpa [joinText, List.append_assoc] using h)
        obtain ⟨e3, e4⟩ := ih (ys := w :: ys) h1 h2 h3 h4 (List.append_cancel_left e2)
        exact ⟨by rw [List.map_cons, e1, e3, ← List.map_cons], e4⟩

variable {name : Label → List Char}

theorem Side.print_head (x : Side) : ∃ ch q, x.print name = ch :: q ∧ (ch = '[' ∨ ch = '-') := by
  cases x with
  | edge h =>
    rcases hb : h.top with _ | _
    · exact ⟨'[', name h.label ++ [']'], by simp [Side.print, HalfEdge.print, hb], .inl rfl⟩
    · exact ⟨'-', '[' :: (name h.label ++ [']']), by simp [Side.print, HalfEdge.print, hb], .inr rfl⟩
  | conn k => exact ⟨'[', k.source.print name ++ [' ', '⚯', ' '] ++ k.target.print name ++ [']'], by simp [Side.print, Conn.print], .inl rfl⟩

/-- A text starting with a comma or a parenthesis does not continue the text of a component. -/
theorem not_side {ch : Char} {r : List Char} (h : ch = ',' ∨ ch = ')') : (∀ (x : Side) q, ch :: r ≠ x.print name ++ q) ∧
    ∀ (x : Side) q, ch :: r ≠ [' '] ++ x.print name ++ q := by
  constructor
  · intro x q e
    obtain ⟨c, q', hx, hc⟩ := x.print_head (name := name)
    rw [hx, List.cons_append] at e
    injection e with e1 _
    subst e1
    rcases h with rfl | rfl <;> rcases hc with hc | hc <;> exact absurd hc (by decide)
  · intro x q e
    simp only [List.cons_append] at e
    injection e with e1 _
    subst e1
    rcases h with h | h <;> exact absurd h (by decide)

theorem sides_split (N : Names name) {p p' : List Side} {ch ch' : Char} {r r' : List Char} (h : ch = ',' ∨ ch = ')') (h' : ch' = ',' ∨ ch' = ')')
    (e : joinText [' '] (p.map (Side.print name)) ++ ch :: r = joinText [' '] (p'.map (Side.print name)) ++ ch' :: r') :
    p.map Side.bare = p'.map Side.bare ∧ ch = ch' ∧ r = r' := by
  obtain ⟨h1, h2⟩ := joinText_split (g := Side.bare) (fun x y q q' => Side.print_split N) (not_side h).1 (not_side h).2 (not_side h').1
    (not_side h').2 e
  injection h2 with h3 h4
  exact ⟨h1, h3, h4⟩

/-- The texts of components joined by commas and followed by a closing parenthesis. -/
theorem components_split (N : Names name) : ∀ {ps ps' : List (List Side)} {r r' : List Char}, (∀ p ∈ ps, p ≠ []) → (∀ p ∈ ps', p ≠ []) →
    joinText [',', ' '] (ps.map (fun p => joinText [' '] (p.map (Side.print name)))) ++ ')' :: r =
      joinText [',', ' '] (ps'.map (fun p => joinText [' '] (p.map (Side.print name)))) ++ ')' :: r' →
    ps.map (List.map Side.bare) = ps'.map (List.map Side.bare) ∧ r = r' := by
  intro ps
  have empty : ∀ {p : List Side} {ch : Char} {q q' : List Char}, (ch = ',' ∨ ch = ')') → p ≠ [] →
      ')' :: q ≠ joinText [' '] (p.map (Side.print name)) ++ ch :: q' := by
    intro p ch q q' hc hp e
    obtain ⟨h1, -⟩ := sides_split N (p := []) (.inr rfl) hc (by simpa [joinText] using e)
    simp at h1
    exact hp h1
  induction ps with
  | nil =>
    intro ps' r r' _ h2 e
    match ps' with
    | [] => exact ⟨rfl, by simpa [joinText] using e⟩
    | [p] => exact absurd (by simpa [joinText] using e) (empty (q := r) (q' := r') (.inr rfl) (h2 p (by simp)))
    | p :: p2 :: ps' =>
      exact absurd (by simpa [joinText, List.append_assoc] using e) (empty (q := r)
        (q' := ' ' :: (joinText [',', ' '] ((p2 :: ps').map (fun p => joinText [' '] (p.map (Side.print name)))) ++ ')' :: r')) (.inl rfl)
        (h2 p (by simp)))
  | cons p ps ih =>
    intro ps' r r' h1 h2 e
    match ps, ps' with
    | [], [] => exact absurd (by simpa [joinText] using e.symm) (empty (q := r') (q' := r) (.inr rfl) (h1 p (by simp)))
    | p2 :: ps, [] =>
      exact absurd (by simpa [joinText, List.append_assoc] using e.symm) (empty (q := r')
        (q' := ' ' :: (joinText [',', ' '] ((p2 :: ps).map (fun p => joinText [' '] (p.map (Side.print name)))) ++ ')' :: r)) (.inl rfl)
        (h1 p (by simp)))
    | [], [p'] =>
      obtain ⟨e1, -, e2⟩ := sides_split N (p := p) (p' := p') (.inr rfl) (.inr rfl) (by simpa [joinText] using e)
      exact ⟨by simp [e1], e2⟩
    | [], p' :: p2' :: ps' =>
      obtain ⟨-, e1, -⟩ := sides_split N (p := p) (p' := p') (r := r)
        (r' := ' ' :: (joinText [',', ' '] ((p2' :: ps').map (fun p => joinText [' '] (p.map (Side.print name)))) ++ ')' :: r')) (.inr rfl) (.inl rfl)
        (by simpa [joinText, List.append_assoc] using e)
      exact absurd e1 (by decide)
    | p2 :: ps, [p'] =>
      obtain ⟨-, e1, -⟩ := sides_split N (p := p) (p' := p')
        (r := ' ' :: (joinText [',', ' '] ((p2 :: ps).map (fun p => joinText [' '] (p.map (Side.print name)))) ++ ')' :: r)) (r' := r') (.inl rfl) (.inr rfl)
        (by simpa [joinText, List.append_assoc] using e)
      exact absurd e1 (by decide)
    | p2 :: ps, p' :: p2' :: ps' =>
      obtain ⟨e1, -, e2⟩ := sides_split N (p := p) (p' := p')
        (r := ' ' :: (joinText [',', ' '] ((p2 :: ps).map (fun p => joinText [' '] (p.map (Side.print name)))) ++ ')' :: r))
        (r' := ' ' :: (joinText [',', ' '] ((p2' :: ps').map (fun p => joinText [' '] (p.map (Side.print name)))) ++ ')' :: r')) (.inl rfl) (.inl rfl)
        (by simpa [joinText, List.append_assoc] using e)
      simp only [List.cons.injEq, true_and] at e2
      obtain ⟨e3, e4⟩ := ih (ps' := p2' :: ps') (fun q hq => h1 q (List.mem_cons_of_mem _ hq)) (fun q hq => h2 q (List.mem_cons_of_mem _ hq)) e2
      exact ⟨by rw [List.map_cons, e1, e3, ← List.map_cons], e4⟩

end Verif
