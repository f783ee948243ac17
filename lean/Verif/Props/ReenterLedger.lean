import Verif.Spec.ReenterLedger
import Verif.Props.Reenter
import Verif.Props.Ledger
/-
C67: no item is lost, duplicated or destroyed twice when destructors use the crate.
-/
namespace Trees
set_option linter.unusedSimpArgs false
set_option linter.unusedVariables false
variable {α : Type}
open Ledger

/-- The books balance. -/
def Books (S : Store α) (L : List α × List α) (S' : Store α) : Prop :=
  StaysGone S S' ∧ ∀ a, ch a S' + cn a S'.dropped + cn a L.2 = ch a S + cn a S.dropped + cn a L.1

/-- Nothing in variables that are not made yet. -/
def Store.Clean (S : Store α) : Prop := ∀ z, S.fresh ≤ z → S.vars z = none

theorem StaysGone.clean {S S' : Store α} (h : StaysGone S S') (c : S.Clean) : S'.Clean := fun z hz => h.2 z (.inr hz) (c z (Nat.le_trans h.1 hz))

theorem Store.Clean.lt {S : Store α} (c : S.Clean) {x : Var} {v : Val α} (h : S.vars x = some v) : x < S.fresh := by
  apply Nat.lt_of_not_le
  intro hx
  rw [c x hx] at h; cases h

theorem Books.refl (S : Store α) : Books S ([], []) S := ⟨.refl _, fun _ => rfl⟩
theorem Books.trans {S S' S'' : Store α} {L L' : List α × List α} (h : Books S L S') (h' : Books S' L' S'') : Books S (plus L L') S'' :=
  ⟨h.1.trans h'.1, fun a => by have := h.2 a; have := h'.2 a; simp only [plus, cn_append]; omega⟩

variable {D : α → Store α → Run (Store α)} {L : α → Store α → List α × List α}

/-- Destructors keep the books. -/
def KeepsBooks (D : α → Store α → Run (Store α)) (L : α → Store α → List α × List α) : Prop :=
  ∀ d S S', S.Clean → D d S = .done S' → Books S (L d S) S'

theorem destroy_books (hD : KeepsBooks D L) : ∀ (ds : List α) {S S' : Store α}, S.Clean → destroyItems D ds S = .done S' →
    StaysGone S S' ∧ ∀ a, ch a S' + cn a S'.dropped + cn a (destroyLedger D L ds S).2 =
      ch a S + cn a S.dropped + cn a ds + cn a (destroyLedger D L ds S).1 := by
  intro ds
  induction ds with
  | nil =>
    intro S S' c h
    simp only [destroyItems, Run.done.injEq] at h
    subst h
    exact ⟨.refl _, fun a => by simp [destroyLedger]⟩
  | cons d ds ih =>
    intro S S' c h
    simp only [destroyItems] at h
    cases e : D d (S.drop [d]) with
    | done S1 =>
      rw [e] at h
      have h1 := hD d (S.drop [d]) S1 c e
      have h2 := ih (h1.1.clean c) h
      refine ⟨StaysGone.drop (h1.1.trans h2.1), fun a => ?_⟩
      have k1 := h1.2 a
      have k2 := h2.2 a
      simp only [destroyLedger, e, plus, cn_append, ch_drop] at k1 ⊢
      rw [cn_cons a d ds]
      have k3 : cn a (S.drop [d]).dropped = cn a S.dropped + cn a [d] := by simp [Store.drop]
      omega
    | bad => rw [e] at h; cases h
    | deep => rw [e] at h; cases h

/-- The outcome keeps the books. -/
def BooksO (S : Store α) (L : List α × List α) : Outcome (Store α) α → Prop
  | .ok S' _ => Books S L S'
  | .panic S' => Books S L S'
  | _ => True

theorem step_books {S : Store α} (c : S.Clean) (op : Op α) {N : List α × List α} (hN : N = ([], [])) :
    BooksO S (plus (S.brings op, S.takes op) N) (specStep S op) := by
  have h1 := spec_bal c op
  have h2 := spec_keeps S op
  subst hN
  cases h : specStep S op <;> rw [h] at h1 h2 <;> simp only [BooksO, BalO, Bal, Outcome.All] at *
  · exact ⟨h2, fun a => by have := h1 a; simp only [plus, List.append_nil]; omega⟩
  · exact ⟨h2, fun a => by have := h1 a; simp only [plus, List.append_nil]; omega⟩

theorem borrow_books {S S2 : Store α} {x : Var} {w : Val α} (hx : S.vars x = some w) (hl : x < S.fresh) (k : StaysGone (S.set x none) S2) :
    StaysGone S (S2.set x (some w)) ∧ ∀ a, ch a (S2.set x (some w)) + ch a (S.set x none) = ch a S2 + ch a S := by
  have hn : S2.vars x = none := k.2 x (.inl hl) (by simp [Store.set])
  refine ⟨⟨k.1, fun z hz e => ?_⟩, fun a => ?_⟩
  · have hzx : z ≠ x := by rintro rfl; rw [hx] at e; cases e
    rw [set_vars_ne hzx]
    exact k.2 z hz (by rw [set_vars_ne hzx]; exact e)
  · have h1 := ch_set a S x none hl
    have h2 := ch_set a S2 x (some w) (Nat.lt_of_lt_of_le hl k.1)
    rw [hn] at h2
    rw [hx] at h1
    simp only [co_none, co_some] at h1 h2
    omega

theorem sib_books (hD : KeepsBooks D L) {S S' : Store α} (c : S.Clean) {x y : Var} {l : Loc} {q : Bool} {v : Val α} (hv : S.vars y = some v)
    (h : specStep S (if q then .insertPrevSib x l y else .insertNextSib x l y) = .panic S') {S2 : Store α}
    (e : (S.set y none).borrowing x (destroyItems D v.post) = .done S2) : Books S (destroyLedger D L v.post ((S.set y none).set x none)) S2 := by
  obtain ⟨hne, ⟨w, hw⟩, t, ht⟩ := spec_sib_panic h
  have hly := c.lt hv
  have hlx := c.lt hw
  have hw' : (S.set y none).vars x = some w := by rw [set_vars_ne hne]; exact hw
  unfold Store.borrowing at e
  rw [hw'] at e
  cases e1 : destroyItems D v.post ((S.set y none).set x none) with
  | done S1 =>
    rw [e1] at e
    simp only [Run.map, Run.done.injEq] at e
    subst e
    have c' : ((S.set y none).set x none).Clean := (StaysGone.set_none.trans StaysGone.set_none).clean c
    have h1 := destroy_books hD _ c' e1
    have h2 := borrow_books (S := S.set y none) hw' hlx h1.1
    refine ⟨StaysGone.set_none.trans h2.1, fun a => ?_⟩
    have k1 := h1.2 a
    have k2 := h2.2 a
    have k3 := ch_set a S y none hly
    rw [hv] at k3
    simp only [co_none, co_some, cv] at k3
    have d1 : ((S.set y none).set x none).dropped = S.dropped := rfl
    have d2 : (S1.set x (some w)).dropped = S1.dropped := rfl
    rw [d1] at k1
    rw [d2]
    omega
  | bad => rw [e1] at e; cases e
  | deep => rw [e1] at e; cases e

theorem stepR_books (hD : KeepsBooks D L) {S : Store α} (c : S.Clean) (op : Op α) {o : Outcome (Store α) α} (h : specStepR D S op = .done o) :
    BooksO S (plus (S.brings op, S.takes op) (S.inside D L op)) o := by
  have plain : ∀ {op : Op α} {o : Outcome (Store α) α}, S.inside D L op = ([], []) → (.done (specStep S op) : Run (Outcome (Store α) α)) = .done o →
      BooksO S (plus (S.brings op, S.takes op) (S.inside D L op)) o := by
    intro op o h1 h2
    cases h2
    exact step_books c op h1
  have sib : ∀ (q : Bool) {x y : Var} {l : Loc} {v : Val α} {S' : Store α} {o : Outcome (Store α) α}, S.vars y = some v →
      specStep S (if q then .insertPrevSib x l y else .insertNextSib x l y) = .panic S' →
      ((S.set y none).borrowing x (destroyItems D v.post)).map .panic = .done o →
      BooksO S (plus ([], []) (destroyLedger D L v.post ((S.set y none).set x none))) o := by
    intro q x y l v S' o hv hs h
    cases e : (S.set y none).borrowing x (destroyItems D v.post) with
    | done S2 =>
      rw [e] at h
      cases h
      have := sib_books hD c hv hs e
      simpa [plus, BooksO] using this
    | bad => rw [e] at h; cases h
    | deep => rw [e] at h; cases h
  cases op with
  | drop x =>
    simp only [specStepR] at h
    cases hv : S.vars x with
    | none => rw [hv] at h; cases h; trivial
    | some v =>
      rw [hv] at h
      replace h : (destroyItems D v.post (S.set x none)).map (fun S' => Outcome.ok S' Out.unit) = .done o := h
      simp only [Store.inside, hv, Store.brings, Store.takes]
      cases e : destroyItems D v.post (S.set x none) with
      | done S2 =>
        rw [e] at h
        simp only [Run.map, Run.done.injEq] at h
        subst h
        have h1 := destroy_books hD _ (StaysGone.set_none.clean c) e
        refine ⟨StaysGone.set_none.trans h1.1, fun a => ?_⟩
        have k1 := h1.2 a
        have k3 := ch_set a S x none (c.lt hv)
        rw [hv] at k3
        simp only [co_none, co_some, cv] at k3
        have d1 : (S.set x none).dropped = S.dropped := rfl
        rw [d1] at k1
        simp only [plus, List.nil_append]
        omega
      | bad => rw [e] at h; cases h
      | deep => rw [e] at h; cases h
  | setData x l d =>
    rcases spec_setData S x l d with h0 | ⟨h1, h2⟩ | ⟨S', old, w, h1, h2, h3, h4⟩
    · have hi : S.inside D L (.setData x l d) = ([], []) := by
        simp only [Store.inside, h0]
        split
        · rename_i h'; cases h'
        · rfl
      refine plain hi ?_
      simp only [specStepR] at h
      rw [h0] at h ⊢
      split at h
      · rename_i h'; cases h'
      · exact h
    · have hi : S.inside D L (.setData x l d) = ([], []) := by simp only [Store.inside, h1, h2]
      refine plain hi ?_
      simp only [specStepR, h1, h2] at h ⊢
      exact h
    · simp only [specStepR, h1, h2] at h
      simp only [Store.inside, h1, h2]
      unfold Store.borrowing at h
      have hs := step_books c (.setData x l d) rfl
      rw [h1] at hs
      have c' := hs.1.clean c
      cases e : D old (S'.set x none) with
      | done S2 =>
        rw [e, h4] at h
        simp only [Run.map, Run.done.injEq] at h
        subst h
        have k := hD old _ S2 (StaysGone.set_none.clean c') e
        have b := borrow_books h4 (c'.lt h4) k.1
        refine ⟨hs.1.trans b.1, fun a => ?_⟩
        have k1 := hs.2 a
        have k2 := k.2 a
        have k3 := b.2 a
        have d1 : (S'.set x none).dropped = S'.dropped := rfl
        have d2 : (S2.set x (some w)).dropped = S2.dropped := rfl
        rw [d1] at k2
        rw [d2]
        simp only [plus, cn_append, List.append_nil] at k1 ⊢
        omega
      | bad => rw [e] at h; cases h
      | deep => rw [e] at h; cases h
  | insertPrevSib x l y =>
    simp only [specStepR] at h
    cases hv : S.vars y with
    | none => rw [hv] at h; exact plain (by simp only [Store.inside, hv]) h
    | some v =>
      rw [hv] at h
      cases hs : specStep S (.insertPrevSib x l y) with
      | panic S' => rw [hs] at h; simp only [Store.inside, hv, hs]; exact sib true hv hs h
      | _ => rw [hs] at h; exact plain (by simp only [Store.inside, hv, hs]) (by rw [hs]; exact h)
  | insertNextSib x l y =>
    simp only [specStepR] at h
    cases hv : S.vars y with
    | none => rw [hv] at h; exact plain (by simp only [Store.inside, hv]) h
    | some v =>
      rw [hv] at h
      cases hs : specStep S (.insertNextSib x l y) with
      | panic S' => rw [hs] at h; simp only [Store.inside, hv, hs]; exact sib false hv hs h
      | _ => rw [hs] at h; exact plain (by simp only [Store.inside, hv, hs]) (by rw [hs]; exact h)
  | _ => exact plain rfl h

theorem runOps_books {st : Store α → Op α → Run (Outcome (Store α) α)} {K : Store α → Op α → List α × List α}
    (hst : ∀ S op o, S.Clean → st S op = .done o → BooksO S (K S op) o) : ∀ (ops : List (Op α)) {S S' : Store α} {os : List (Outcome Unit α)},
    S.Clean → runOps st S ops = .done (S', os) → Books S (ledgerRun st K S ops) S' := by
  intro ops
  induction ops with
  | nil =>
    intro S S' os c h
    simp only [runOps, Run.done.injEq, Prod.mk.injEq] at h
    rw [← h.1]
    exact .refl _
  | cons op ops ih =>
    intro S S' os c h
    simp only [runOps] at h
    have rest : ∀ {S1 : Store α} {w : Outcome Unit α}, (runOps st S1 ops).map (fun q => (q.1, w :: q.2)) = .done (S', os) →
        ∃ os', runOps st S1 ops = .done (S', os') := by
      intro S1 w h
      cases e : runOps st S1 ops with
      | done q => rw [e] at h; simp only [Run.map, Run.done.injEq, Prod.mk.injEq] at h; obtain ⟨q1, q2⟩ := q; exact ⟨q2, by rw [← h.1]⟩
      | bad => rw [e] at h; cases h
      | deep => rw [e] at h; cases h
    cases e : st S op with
    | done o =>
      rw [e] at h
      have h1 := hst S op o c e
      cases o with
      | ok S1 w =>
        obtain ⟨os', h2⟩ := rest h
        simp only [ledgerRun, e]
        exact h1.trans (ih (h1.1.clean c) h2)
      | panic S1 =>
        obtain ⟨os', h2⟩ := rest h
        simp only [ledgerRun, e]
        exact h1.trans (ih (h1.1.clean c) h2)
      | rejected =>
        obtain ⟨os', h2⟩ := rest h
        simp only [ledgerRun, e]
        exact ih c h2
      | bad =>
        obtain ⟨os', h2⟩ := rest h
        simp only [ledgerRun, e]
        exact ih c h2
    | bad => rw [e] at h; cases h
    | deep => rw [e] at h; cases h

theorem execR_books (dtor : α → List (Op α)) : ∀ (n : Nat) (ops : List (Op α)) {S S' : Store α} {os : List (Outcome Unit α)},
    S.Clean → specExecR dtor n S ops = .done (S', os) → Books S (ledgerReenter dtor n S ops) S' := by
  intro n
  induction n with
  | zero =>
    intro ops S S' os c h
    simp only [specExecR] at h
    split at h
    · simp only [Run.done.injEq, Prod.mk.injEq] at h
      rw [← h.1]
      exact .refl _
    · cases h
  | succ n ih =>
    intro ops S S' os c h
    simp only [specExecR] at h
    refine runOps_books (fun S op o c h => stepR_books ?_ c op h) ops c h
    intro d S S' c h
    replace h : (specExecR dtor n S (dtor d)).map Prod.fst = .done S' := h
    cases e : specExecR dtor n S (dtor d) with
    | done q =>
      obtain ⟨q1, q2⟩ := q
      rw [e] at h
      simp only [Run.map, Run.done.injEq] at h
      subst h
      exact ih _ c e
    | bad => rw [e] at h; cases h
    | deep => rw [e] at h; cases h

/-- **C67** Whatever the destructors of the items do with the crate, however deep they nest: what is held and destroyed afterwards,
together with what was handed out, is exactly what was held and destroyed before, together with what the program and the
destructors brought in — every item as often. -/
theorem c67_program {m m' : Machine α} (h : Reachable m) {dtor : α → List (Op α)} {n : Nat} {ops : List (Op α)} {os : List (Outcome Unit α)}
    (e : execR dtor n m ops = .done (m', os)) :
    (m'.held ++ m'.destroyed ++ (ledgerReenter dtor n m.store ops).2).Perm (m.held ++ m.destroyed ++ (ledgerReenter dtor n m.store ops).1) := by
  have h1 := c66_program h dtor n ops
  rw [e] at h1
  have h2 := execR_books dtor n ops (creach_fresh (reachable_creachable h)) h1.symm
  refine eq_perm fun a => ?_
  have := h2.2 a
  simp only [cn_append]
  exact this

/-- **C67** Nothing is lost: when all variables are gone, every item brought in was destroyed or handed out, exactly once. -/
theorem c67_all_destroyed {dtor : α → List (Op α)} {n : Nat} {ops : List (Op α)} {os : List (Outcome Unit α)} {m' : Machine α}
    (e : execR dtor n Machine.empty ops = .done (m', os)) (he : ∀ x, m'.view x = none) :
    (m'.destroyed ++ (ledgerReenter dtor n Store.empty ops).2).Perm (ledgerReenter dtor n Store.empty ops).1 := by
  have h := c67_program .init e
  have e1 : m'.held = [] := by simp [Machine.held, he]
  rw [e1] at h
  exact h

/-- **C67** If all items brought in are distinct, no destructor runs twice for an item, and no destroyed item is still in a tree. -/
theorem c67_distinct {dtor : α → List (Op α)} {n : Nat} {ops : List (Op α)} {os : List (Outcome Unit α)} {m' : Machine α}
    (e : execR dtor n Machine.empty ops = .done (m', os)) (hd : (ledgerReenter dtor n Store.empty ops).1.Nodup) :
    m'.destroyed.Nodup ∧ m'.held.Nodup ∧ ∀ d ∈ m'.destroyed, d ∉ m'.held := by
  have h := c67_program .init e
  have h3 := h.nodup_iff.mpr hd
  rw [List.nodup_append, List.nodup_append] at h3
  obtain ⟨⟨a1, a2, a3⟩, -, -⟩ := h3
  exact ⟨a2, a1, fun d hd hh => a3 d hh d hd rfl⟩

/-! ### The destructors of C66 -/

/-- Dropping the tree `0 [1]`: the destructor of `1` brings in `7`. -/
theorem c67_demo_ledger : ledgerReenter c66_dtor 3 Store.empty c66_ops = ([0, 1, 50, 7], []) := by decide +kernel

example : ledgerReenter c66_dtor 3 Store.empty c66_ops2 = ([3, 9, 3, 5, 8, 8], []) := by decide +kernel

/-- So in the crate, too: each of the four items is destroyed exactly once. -/
example : ∃ m' os, execR c66_dtor 3 Machine.empty c66_ops = .done (m', os) ∧ m'.destroyed.Nodup := by
  have h := c66_demo
  cases e : execR c66_dtor 3 Machine.empty c66_ops with
  | done q => exact ⟨q.1, q.2, rfl, (c67_distinct e (by rw [c67_demo_ledger]; decide)).1⟩
  | bad => rw [e] at h; cases h
  | deep => rw [e] at h; cases h

end Trees
