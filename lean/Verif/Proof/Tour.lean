import Verif.Proof.Walk
/-
The steps of the cursor specification follow the Euler tour.
-/
namespace Trees
set_option linter.unusedSimpArgs false
variable {α : Type}
namespace Cur

/-- The entries of `L` follow one another by `forward`, and the last one is followed by `c`. -/
def Steps (ts : List (RTree α)) : List (Kind × Pos) → Cur → Prop
  | [], _ => True
  | [x], c => forward ts (.at x.1 x.2) = some c
  | x :: y :: r, c => forward ts (.at x.1 x.2) = some (.at y.1 y.2) ∧ Steps ts (y :: r) c

theorem Steps.append {ts : List (RTree α)} {y : Kind × Pos} {L2 : List (Kind × Pos)} {c : Cur} (h2 : Steps ts (y :: L2) c) :
    ∀ {L1 : List (Kind × Pos)}, Steps ts L1 (.at y.1 y.2) → Steps ts (L1 ++ y :: L2) c := by
  intro L1
  induction L1 with
  | nil => intro _; exact h2
  | cons x r ih =>
    intro h1
    cases r with
    | nil => exact ⟨h1, h2⟩
    | cons z r => exact ⟨h1.1, ih h1.2⟩

theorem Steps.get {ts : List (RTree α)} {c : Cur} : ∀ {L : List (Kind × Pos)}, Steps ts L c → ∀ (j : Nat) (x : Kind × Pos), L[j]? = some x →
    forward ts (.at x.1 x.2) = some (match L[j+1]? with | some y => .at y.1 y.2 | none => c) := by
  intro L
  induction L with
  | nil => intro _ j x e; simp at e
  | cons z r ih =>
    intro h j x e
    cases r with
    | nil =>
      cases j with
      | zero => simp at e; subst e; exact h
      | succ j => simp at e
    | cons y r =>
      cases j with
      | zero => simp at e; subst e; exact h.1
      | succ j => simpa using ih h.2 j x (by simpa using e)

/-- What follows the visits of the tree at a position. -/
def after (ts : List (RTree α)) : Pos → Cur
  | [] => done
  | i :: q => if i + 1 < degAt ts q then first ts ((i + 1) :: q) else leave q

theorem tour_head (p : Pos) (t : RTree α) : ∃ L, tour p t = (if t.kids.length = 0 then .leaf else .begin, p) :: L := by
  cases t with
  | node d ks => cases ks <;> simp [tour]

theorem degAt_of {ts us : List (RTree α)} {q : Pos} (e : kidsAt ts q.reverse = some us) : degAt ts q = us.length := by simp [degAt, e]

theorem kidsAt_cons {ts us : List (RTree α)} {q : Pos} {i : Nat} {t : RTree α} (e : kidsAt ts q.reverse = some us) (e2 : us[i]? = some t) :
    kidsAt ts (i :: q).reverse = some t.kids := by
  simp [kidsAt_append, e, kidsAt, e2]

theorem forward_last {ts : List (RTree α)} {k : Kind} {i : Nat} {q : Pos} (hk : k ≠ .begin) : forward ts (.at k (i :: q)) = some (after ts (i :: q)) := by
  cases k <;> simp [forward, after] at hk ⊢

theorem first_of {ts : List (RTree α)} {p : Pos} {t : RTree α} (e : kidsAt ts p.reverse = some t.kids) :
    first ts p = .at (if t.kids.length = 0 then .leaf else .begin) p := by
  simp only [first, degAt_of e]

mutual
theorem steps_tour (ts : List (RTree α)) : ∀ (t : RTree α) (i : Nat) (q : Pos), kidsAt ts (i :: q).reverse = some t.kids →
    Steps ts (tour (i :: q) t) (after ts (i :: q))
  | .node d [], i, q, e => by simp only [tour, Steps]; exact forward_last (by simp)
  | .node d (k :: ks), i, q, e => by
    have h1 := steps_tourL ts (k :: ks) 0 (i :: q) (k :: ks) e rfl
    obtain ⟨L, hL⟩ := tour_head (0 :: i :: q) k
    have hk : kidsAt ts (0 :: i :: q).reverse = some k.kids := kidsAt_cons (us := k :: ks) e rfl
    have e1 : tourL (i :: q) 0 (k :: ks) = ((if k.kids.length = 0 then .leaf else .begin, 0 :: i :: q) :: L) ++ tourL (i :: q) 1 ks := by
      simp only [tourL, hL]
    rw [tour, List.cons_append]
    have h2 : Steps ts (tourL (i :: q) 0 (k :: ks) ++ [(.stop, i :: q)]) (after ts (i :: q)) :=
      Steps.append (y := (.stop, i :: q)) (L2 := []) (by simp only [Steps]; exact forward_last (by simp)) h1
    rw [e1] at h2 ⊢
    refine ⟨?_, h2⟩
    simp only [forward, first_of hk]
theorem steps_tourL (ts : List (RTree α)) : ∀ (us : List (RTree α)) (i : Nat) (q : Pos) (vs : List (RTree α)), kidsAt ts q.reverse = some vs →
    vs.drop i = us → Steps ts (tourL q i us) (leave q)
  | [], i, q, vs, e, hd => by simp [tourL, Steps]
  | [u], i, q, vs, e, hd => by
    have hu : vs[i]? = some u := by rw [← List.head?_drop, hd]; rfl
    have hl : ¬ i + 1 < vs.length := by
      have := congrArg List.length hd
      simp at this; omega
    have h1 := steps_tour ts u i q (kidsAt_cons e hu)
    simp only [after, degAt_of e, if_neg hl] at h1
    simpa [tourL] using h1
  | u :: u' :: us, i, q, vs, e, hd => by
    have hu : vs[i]? = some u := by rw [← List.head?_drop, hd]; rfl
    have hd' : vs.drop (i + 1) = u' :: us := by
      rw [← List.drop_drop, hd]; rfl
    have hu' : vs[i+1]? = some u' := by rw [← List.head?_drop, hd']; rfl
    have hl : i + 1 < vs.length := by
      have := congrArg List.length hd
      simp at this; omega
    have h1 := steps_tour ts u i q (kidsAt_cons e hu)
    have h2 := steps_tourL ts (u' :: us) (i + 1) q vs e hd'
    obtain ⟨L, hL⟩ := tour_head ((i + 1) :: q) u'
    simp only [after, degAt_of e, if_pos hl, first_of (kidsAt_cons e hu')] at h1
    rw [tourL]
    have e1 : tourL q (i + 1) (u' :: us) = (if u'.kids.length = 0 then .leaf else .begin, (i + 1) :: q) :: (L ++ tourL q (i + 1 + 1) us) := by
      rw [tourL, hL]; rfl
    rw [e1] at h2 ⊢
    exact h2.append h1
end

theorem steps_euler (ts : List (RTree α)) : Steps ts (eulerTour ts) done := steps_tourL ts ts 0 [] ts rfl rfl

/-- **The cursor follows the tour.** -/
theorem forward_tour (ts : List (RTree α)) (j : Nat) (k : Kind) (p : Pos) (e : (eulerTour ts)[j]? = some (k, p)) :
    forward ts (.at k p) = some (match (eulerTour ts)[j+1]? with | some y => .at y.1 y.2 | none => done) :=
  (steps_euler ts).get j (k, p) e

theorem start_tour (ts : List (RTree α)) : start ts = (match (eulerTour ts)[0]? with | some y => .at y.1 y.2 | none => done) := by
  cases ts with
  | nil => rfl
  | cons t ts =>
    obtain ⟨L, hL⟩ := tour_head [0] t
    simp only [start, List.length_cons, Nat.succ_ne_zero, if_false, eulerTour, tourL, hL, List.cons_append, List.getElem?_cons_zero]
    exact first_of (kidsAt_cons (q := []) (us := t :: ts) rfl rfl)

theorem tour_sub_tourL : ∀ (us : List (RTree α)) (i j : Nat) (q : Pos) (t : RTree α), us[j]? = some t → ∀ x ∈ tour ((i + j) :: q) t, x ∈ tourL q i us
  | [], i, j, q, t, e => by simp at e
  | u :: us, i, 0, q, t, e => by
    simp at e; subst e
    intro x hx; simp only [tourL, List.mem_append]; exact .inl hx
  | u :: us, i, j + 1, q, t, e => by
    intro x hx
    simp only [tourL, List.mem_append]
    right
    refine tour_sub_tourL us (i + 1) j q t (by simpa using e) x ?_
    rwa [show i + 1 + j = i + (j + 1) from by omega]

/-- The tour of every subtree is part of the whole tour. -/
theorem tour_sub (ts : List (RTree α)) : ∀ (q : Pos) (us : List (RTree α)) (i : Nat) (t : RTree α), kidsAt ts q.reverse = some us → us[i]? = some t →
    ∀ x ∈ tour (i :: q) t, x ∈ eulerTour ts := by
  intro q
  induction q with
  | nil =>
    intro us i t e e2 x hx
    simp only [List.reverse_nil, kidsAt, Option.some.injEq] at e
    subst e
    exact tour_sub_tourL ts 0 i [] t e2 x (by simpa using hx)
  | cons j q ih =>
    intro us i t e e2 x hx
    simp only [List.reverse_cons, kidsAt_append] at e
    cases e3 : kidsAt ts q.reverse with
    | none => rw [e3] at e; simp at e
    | some vs =>
      rw [e3] at e
      simp only [Option.bind_some, kidsAt] at e
      cases e4 : vs[j]? with
      | none => rw [e4] at e; simp at e
      | some u =>
        rw [e4] at e
        simp only [kidsAt, Option.some.injEq] at e
        refine ih vs j u e3 e4 x ?_
        cases u with
        | node d ks =>
          simp only [RTree.kids] at e
          subst e
          cases ks with
          | nil => simp at e2
          | cons k ks =>
            simp only [tour, List.cons_append, List.mem_cons, List.mem_append]
            right; left
            exact tour_sub_tourL (k :: ks) 0 i (j :: q) t e2 x (by simpa using hx)

/-- A visit that can occur at a position: a leaf is visited as such, other nodes at their begin and end. -/
def ValidAt (ts : List (RTree α)) (k : Kind) (p : Pos) : Prop := nodeExists ts p ∧ (k = .leaf ↔ degAt ts p = 0)

/-- Every possible visit occurs in the tour. -/
theorem tour_complete {ts : List (RTree α)} {k : Kind} {p : Pos} (hv : ValidAt ts k p) : (k, p) ∈ eulerTour ts := by
  obtain ⟨h1, h2⟩ := hv
  cases p with
  | nil => exact absurd h1 (by simp [nodeExists])
  | cons i q =>
    obtain ⟨us, e1, e2⟩ := h1
    have e3 : us[i]? = some us[i] := by simp [e2]
    refine tour_sub ts q us i us[i] e1 e3 _ ?_
    rw [degAt_of (kidsAt_cons e1 e3)] at h2
    cases hu : us[i] with
    | node d ks =>
      rw [hu] at h2
      cases ks with
      | nil => simp at h2; subst h2; simp [tour]
      | cons c cs => cases k <;> simp [tour] at h2 ⊢

/-- `n` steps. -/
def forwards (ts : List (RTree α)) : Nat → Cur → Option Cur
  | 0, c => some c
  | n + 1, c => (forward ts c).bind (forwards ts n)

theorem forwards_done (ts : List (RTree α)) (n : Nat) : forwards ts n done = some done := by
  induction n with
  | zero => rfl
  | succ n ih => simp [forwards, forward, ih]

theorem forwards_tour (ts : List (RTree α)) : ∀ (n j : Nat),
    forwards ts n (match (eulerTour ts)[j]? with | some y => .at y.1 y.2 | none => done) =
      some (match (eulerTour ts)[j+n]? with | some y => .at y.1 y.2 | none => done) := by
  intro n
  induction n with
  | zero => intro j; rfl
  | succ n ih =>
    intro j
    cases e : (eulerTour ts)[j]? with
    | none =>
      have : (eulerTour ts)[j + (n + 1)]? = none := by simp at e ⊢; omega
      rw [this]; exact forwards_done ts (n + 1)
    | some y =>
      simp only [forwards, forward_tour ts j y.1 y.2 e, Option.bind_some]
      rw [ih (j + 1), show j + 1 + n = j + (n + 1) from by omega]

theorem calls_append (ts : List (RTree α)) : ∀ (xs ys : List WalkOp) (c : Cur),
    calls ts c (xs ++ ys) = ((calls ts c xs).1 ++ (calls ts (calls ts c xs).2 ys).1, (calls ts (calls ts c xs).2 ys).2) := by
  intro xs
  induction xs with
  | nil => intro ys c; rfl
  | cons x xs ih => intro ys c; simp only [List.cons_append, calls, ih]

theorem calls_forwards (ts : List (RTree α)) : ∀ (n : Nat) (c c' : Cur), forwards ts n c = some c' →
    calls ts c (List.replicate n .forward) = (List.replicate n .unit, c') := by
  intro n
  induction n with
  | zero => intro c c' e; simp only [forwards, Option.some.injEq] at e; subst e; rfl
  | succ n ih =>
    intro c c' e
    simp only [forwards] at e
    cases e1 : forward ts c with
    | none => rw [e1] at e; simp at e
    | some c1 =>
      rw [e1] at e
      simp only [List.replicate_succ, calls, call, e1, ih c1 c' e]

end Cur
end Trees
