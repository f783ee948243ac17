import Verif.Proof.ForgetRc
import Verif.Props.SharedProgram
/-
C65: `mem::forget` is harmless: the rest of the program behaves as if the forgotten values were still held.
-/
namespace Trees
set_option linter.unusedSimpArgs false
set_option linter.unusedVariables false
variable {α : Type}

theorem sstep_fresh (s : SStore α) (op : ROp α) : s.excl.fresh ≤ ((sstep s op).stateOr s).excl.fresh := by
  cases op with
  | excl op =>
    have := spec_fresh s.excl op
    simp only [sstep]
    cases h : specStep s.excl op <;> rw [h] at this <;> first | exact this | exact Nat.le_refl _
  | _ =>
    simp only [sstep, SStore.reads, SStore.writes, SStore.onRc, SStore.withTree, SStore.withForest, SStore.consumes, SStore.retRc] <;>
    (repeat' split) <;>
    simp_all [Outcome.stateOr, Store.bind, Store.set, Store.drop, SStore.bindRef, SStore.setRef, SStore.log, SStore.release, SStore.retRc] <;>
    (repeat' split) <;> simp_all [Outcome.stateOr, Store.drop, SStore.setRef, SStore.bindRef] <;> omega

/-- `clone` and `downgrade` are called on handles to nodes in boxes only (for the others: C35, C36). -/
def BoxedStmts (m : RMachine α) : List (FOp α) → Bool
  | [] => true
  | op :: ops => (match op with
      | .call op => m.boxedCall op
      | .forget _ => true) && BoxedStmts (match fstep m op with
      | .ok m' _ => m'
      | .panic m' => m'
      | _ => m) ops

/-- `g` is the machine in which nothing has been forgotten. -/
structure FSim (g m : RMachine α) (s : FStore α) : Prop where
  hid : m = g.hide s.lost
  sim : ∃ φ, SSim φ g s.all
  old : ∀ x, s.lost x = true → x < g.fresh

theorem fsim_empty : FSim (RMachine.empty : RMachine α) RMachine.empty FStore.empty :=
  ⟨by simp only [RMachine.hide, RMachine.empty, FStore.empty]; congr 1 <;> (funext x; simp [veil]), ⟨_, ssim_empty⟩, fun x h => by simp [FStore.empty] at h⟩

section
variable {g m : RMachine α} {s : FStore α} (S : FSim g m s)
include S

theorem FSim.fresh_seen : s.lost g.fresh = false := by
  cases h : s.lost g.fresh with
  | false => rfl
  | true => exact absurd (S.old _ h) (Nat.lt_irrefl _)

theorem FSim.busy (k : Var) : s.seen.busy k = m.guarded k := by
  obtain ⟨φ, S1⟩ := S.sim
  rw [S.hid]
  simp only [SStore.busy, SStore.anyVar, RMachine.guarded]
  rw [show s.seen.excl.fresh = (g.hide s.lost).fresh from S1.fresh]
  congr 1
  funext x
  have h1 := S1.refs x
  show _ = (match (veil s.lost g.refs) x with | some (.guard k' _ _) => k' == k | _ => false)
  simp only [FStore.seen, veil]
  cases s.lost x with
  | true => rfl
  | false =>
    simp only [Bool.false_eq_true, if_false]
    cases h2 : g.refs x with
    | none =>
      rw [h2] at h1
      cases h3 : s.all.refs x with
      | none => rfl
      | some q => rw [h3] at h1; cases q <;> exact h1.elim
    | some r =>
      rw [h2] at h1
      cases h3 : s.all.refs x with
      | none => rw [h3] at h1; cases r <;> exact h1.elim
      | some q =>
        rw [h3] at h1
        cases r <;> cases q <;> first | exact h1.elim | rfl | skip
        simp only [RefRel] at h1
        simp only [h1.1]
        rfl

theorem FSim.refs_none (x : Var) : (s.seen.refs x).isNone = (m.refs x).isNone := by
  obtain ⟨φ, S1⟩ := S.sim
  rw [S.hid]
  have h1 := S1.refs x
  simp only [FStore.seen, RMachine.hide, veil]
  cases s.lost x with
  | true => rfl
  | false =>
    simp only [Bool.false_eq_true, if_false]
    cases h2 : g.refs x with
    | none =>
      rw [h2] at h1
      cases h3 : s.all.refs x with
      | none => rfl
      | some q => rw [h3] at h1; cases q <;> exact h1.elim
    | some r =>
      rw [h2] at h1
      cases h3 : s.all.refs x with
      | none => rw [h3] at h1; cases r <;> exact h1.elim
      | some q => rfl

theorem FSim.vars_none (x : Var) : (s.seen.excl.vars x).isNone = (m.env x).isNone := by
  obtain ⟨φ, S1⟩ := S.sim
  rw [S.hid]
  simp only [FStore.seen, RMachine.hide, veil]
  cases s.lost x with
  | true => rfl
  | false =>
    simp only [Bool.false_eq_true, if_false, S1.excl]
    show (g.excl.view x).isNone = _
    cases he : g.env x with
    | none => simp [Machine.view, RMachine.excl, he]
    | some hd =>
      obtain ⟨G, K, T, I, B⟩ := S1.reach.si
      obtain ⟨v, h1, h2⟩ := I.hden he
      rw [h2]; rfl

theorem FSim.boxed {op : ROp α} (hv : ∀ x ∈ op.vars, s.lost x = false) (h : m.boxedCall op = true) : g.boxedCall op = true := by
  rw [S.hid] at h
  cases op <;> first | rfl | skip
  all_goals
    rename_i k
    have hk := hv k (by simp [ROp.vars])
    simpa [RMachine.boxedCall, RMachine.inBlock, RMachine.hide, veil, hk] using h

/-- A call: `g` runs it too. -/
theorem FSim.call {op : ROp α} (hb : m.boxedCall op = true) (ha : fsstep s (.call op) ≠ .bad) :
    (op.vars.any s.lost = true ∧ rstep m op = .rejected ∧ fsstep s (.call op) = .rejected) ∨
    (∃ g' m' s' o, rstep g op = .ok g' o ∧ rstep m op = .ok m' o ∧ fsstep s (.call op) = .ok s' o ∧ FSim g' m' s') ∨
    (∃ g' m' s', rstep g op = .panic g' ∧ rstep m op = .panic m' ∧ fsstep s (.call op) = .panic s' ∧ FSim g' m' s') ∨
    (rstep g op = .rejected ∧ rstep m op = .rejected ∧ fsstep s (.call op) = .rejected) := by
  by_cases hl : op.vars.any s.lost = true
  · refine .inl ⟨hl, ?_, by simp [fsstep, hl]⟩
    obtain ⟨x, h1, h2⟩ := List.any_eq_true.mp hl
    rw [S.hid]
    exact hide_rejected op h1 h2
  · right
    have hv : ∀ x ∈ op.vars, s.lost x = false := by
      intro x hx
      cases h : s.lost x with
      | false => rfl
      | true => exact absurd (List.any_eq_true.mpr ⟨x, hx, h⟩) hl
    simp only [fsstep, hl, Bool.false_eq_true, if_false] at ha ⊢
    by_cases hm : (op.moved.any fun k => s.all.busy k && !s.seen.busy k) = true
    · rw [if_pos hm] at ha; exact absurd rfl ha
    · rw [if_neg hm] at ha ⊢
      obtain ⟨φ, S1⟩ := S.sim
      have hg : ∀ k ∈ op.moved, (g.hide s.lost).guarded k = g.guarded k := by
        intro k hk
        rw [← S.hid, ← S.busy k, ← S1.busy_eq k]
        have : ¬ (s.all.busy k && !s.seen.busy k) = true := fun h => hm (List.any_eq_true.mpr ⟨k, hk, h⟩)
        cases h1 : s.all.busy k with
        | true => cases h2 : s.seen.busy k with
          | true => rfl
          | false => simp [h1, h2] at this
        | false =>
          cases h2 : s.seen.busy k with
          | false => rfl
          | true =>
            simp only [SStore.busy, SStore.anyVar, List.any_eq_true] at h2
            obtain ⟨x, h3, h4⟩ := h2
            have : s.all.busy k = true := by
              simp only [SStore.busy, SStore.anyVar, List.any_eq_true]
              refine ⟨x, h3, ?_⟩
              simp only [FStore.seen] at h4
              cases h5 : s.lost x with
              | true => simp [h5] at h4
              | false => simpa [h5] using h4
            rw [h1] at this; exact this.symm
      have he := hide_rstep (m := g) (F := s.lost) S.fresh_seen op hv hg
      rw [← S.hid] at he
      have hs : sstep s.all op ≠ .bad := by
        intro e; rw [e] at ha; exact ha rfl
      have hM := S1.call op (boxedOnly_of (S.boxed hv hb)) hs
      have hfr := sstep_fresh s.all op
      cases hr : rstep g op with
      | ok g' o =>
        cases hq : sstep s.all op with
        | ok s' o' =>
          rw [hr, hq] at hM
          rw [hq] at hfr
          obtain ⟨rfl, φ', S2⟩ := hM
          refine .inl ⟨g', g'.hide s.lost, ⟨s', s.lost⟩, o, rfl, by rw [he, hr]; rfl, rfl, rfl, ⟨_, S2⟩, fun x hx => ?_⟩
          have h1 := S.old x hx
          rw [← S1.fresh] at h1; rw [← S2.fresh]
          exact Nat.lt_of_lt_of_le h1 hfr
        | panic s' => rw [hr, hq] at hM; exact hM.elim
        | rejected => rw [hr, hq] at hM; exact hM.elim
        | bad => exact absurd hq hs
      | panic g' =>
        cases hq : sstep s.all op with
        | panic s' =>
          rw [hr, hq] at hM
          rw [hq] at hfr
          obtain ⟨φ', S2⟩ := hM
          refine .inr (.inl ⟨g', g'.hide s.lost, ⟨s', s.lost⟩, rfl, by rw [he, hr]; rfl, rfl, rfl, ⟨_, S2⟩, fun x hx => ?_⟩)
          have h1 := S.old x hx
          rw [← S1.fresh] at h1; rw [← S2.fresh]
          exact Nat.lt_of_lt_of_le h1 hfr
        | ok s' o' => rw [hr, hq] at hM; exact hM.elim
        | rejected => rw [hr, hq] at hM; exact hM.elim
        | bad => exact absurd hq hs
      | rejected =>
        cases hq : sstep s.all op with
        | rejected => exact .inr (.inr ⟨rfl, by rw [he, hr]; rfl, rfl⟩)
        | ok s' o' => rw [hr, hq] at hM; exact hM.elim
        | panic s' => rw [hr, hq] at hM; exact hM.elim
        | bad => exact absurd hq hs
      | bad => rw [hr] at hM; cases hq : sstep s.all op <;> rw [hq] at hM <;> exact hM.elim

/-- `forget`: `g` does nothing. -/
theorem FSim.forget (x : Var) :
    (∃ m' s', fstep m (.forget x) = .ok m' .unit ∧ fsstep s (.forget x) = .ok s' .unit ∧ FSim g m' s') ∨
    (fstep m (.forget x) = .rejected ∧ fsstep s (.forget x) = .rejected) := by
  simp only [fstep, RMachine.forget, fsstep, S.vars_none x, S.refs_none x, S.busy x]
  by_cases h1 : ((m.env x).isNone && (m.refs x).isNone) = true
  · exact .inr ⟨by rw [if_pos h1], by rw [if_pos h1]⟩
  · by_cases h2 : m.guarded x = true
    · exact .inr ⟨by rw [if_neg h1, if_pos h2], by rw [if_neg h1, if_pos h2]⟩
    · refine .inl ⟨_, ⟨s.all, upd s.lost x true⟩, by rw [if_neg h1, if_neg h2], by rw [if_neg h1, if_neg h2], ?_, S.sim, ?_⟩
      · rw [S.hid]
        have key : ∀ {γ : Type} (e : Var → Option γ), upd (veil s.lost e) x none = veil (upd s.lost x true) e := by
          intro γ e; funext z; simp only [veil, upd]; by_cases hz : z = x <;> simp [hz]
        simp only [RMachine.hide, key]
      · intro z hz
        by_cases hzx : z = x
        · subst hzx
          obtain ⟨φ, S1⟩ := S.sim
          by_contra hlt
          obtain ⟨G, K, T, I, B⟩ := S1.reach.si
          obtain ⟨h3, h4⟩ := I.fr z (Nat.le_of_not_lt hlt)
          rw [S.hid] at h1
          simp [RMachine.hide, veil, h3, h4] at h1
        · simp only [upd, hzx, if_false] at hz
          exact S.old z hz

end

/-- The calls of a program. -/
def FOp.calls : List (FOp α) → List (ROp α)
  | [] => []
  | .call op :: ops => op :: FOp.calls ops
  | .forget _ :: ops => FOp.calls ops

/-- The results of the calls of a program. -/
def ofCalls {γ : Type} : List (FOp α) → List γ → List γ
  | .call _ :: ops, o :: os => o :: ofCalls ops os
  | .forget _ :: ops, _ :: os => ofCalls ops os
  | _, _ => []

theorem FSim.program : ∀ (ops : List (FOp α)) {g m : RMachine α} {s : FStore α}, FSim g m s → BoxedStmts m ops = true → Allowed (runStmts fsstep s ops).2 →
    (runStmts fstep m ops).2 = (runStmts fsstep s ops).2 ∧ ∃ g', FSim g' (runStmts fstep m ops).1 (runStmts fsstep s ops).1 ∧
      (.rejected ∉ (runStmts fsstep s ops).2 → runProg rstep g (FOp.calls ops) = (g', ofCalls ops (runStmts fsstep s ops).2))
  | [], g, m, s, S, _, _ => ⟨rfl, g, S, fun _ => rfl⟩
  | .forget x :: ops, g, m, s, S, h1, h2 => by
    simp only [BoxedStmts, Bool.true_and] at h1
    simp only [runStmts] at h2 ⊢
    rcases S.forget x with ⟨m', s', e1, e2, S'⟩ | ⟨e1, e2⟩
    · rw [e1] at h1
      rw [e2] at h2
      obtain ⟨g1, g', g2, g3⟩ := FSim.program ops S' h1 h2
      rw [e1, e2]
      refine ⟨by simp only [g1], g', g2, fun hn => ?_⟩
      simp only [List.mem_cons, not_or] at hn
      simpa only [FOp.calls, ofCalls] using g3 hn.2
    · rw [e1] at h1
      rw [e2] at h2
      obtain ⟨g1, g', g2, g3⟩ := FSim.program ops S h1 h2
      rw [e1, e2]
      exact ⟨by simp only [g1], g', g2, fun hn => absurd (List.mem_cons_self ..) hn⟩
  | .call op :: ops, g, m, s, S, h1, h2 => by
    simp only [BoxedStmts, Bool.and_eq_true] at h1
    obtain ⟨hb, h1⟩ := h1
    have hne : fsstep s (.call op) ≠ .bad := by
      intro e
      simp only [runStmts, e, Allowed] at h2
    simp only [runStmts] at h2 ⊢
    rcases S.call hb hne with ⟨-, e1, e2⟩ | ⟨g', m', s', o, e0, e1, e2, S'⟩ | ⟨g', m', s', e0, e1, e2, S'⟩ | ⟨e0, e1, e2⟩
    · rw [show fstep m (.call op) = _ from e1] at h1 ⊢
      rw [e2] at h2 ⊢
      obtain ⟨g1, g', g2, g3⟩ := FSim.program ops S h1 h2
      exact ⟨by simp only [g1], g', g2, fun hn => absurd (List.mem_cons_self ..) hn⟩
    · rw [show fstep m (.call op) = _ from e1] at h1 ⊢
      rw [e2] at h2 ⊢
      obtain ⟨g1, g'', g2, g3⟩ := FSim.program ops S' h1 h2
      refine ⟨by simp only [g1], g'', g2, fun hn => ?_⟩
      simp only [List.mem_cons, not_or] at hn
      have := g3 hn.2
      simp only [FOp.calls, ofCalls, runProg, e0, this]
    · rw [show fstep m (.call op) = _ from e1] at h1 ⊢
      rw [e2] at h2 ⊢
      obtain ⟨g1, g'', g2, g3⟩ := FSim.program ops S' h1 h2
      refine ⟨by simp only [g1], g'', g2, fun hn => ?_⟩
      simp only [List.mem_cons, not_or] at hn
      have := g3 hn.2
      simp only [FOp.calls, ofCalls, runProg, e0, this]
    · rw [show fstep m (.call op) = _ from e1] at h1 ⊢
      rw [e2] at h2 ⊢
      obtain ⟨g1, g', g2, g3⟩ := FSim.program ops S h1 h2
      exact ⟨by simp only [g1], g', g2, fun hn => absurd (List.mem_cons_self ..) hn⟩

theorem FSim.described {g m : RMachine α} {s : FStore α} (S : FSim g m s) : ∃ φ, Described φ m s.seen := by
  obtain ⟨φ, S1⟩ := S.sim
  have D := S1.described
  refine ⟨φ, ?_, ?_, ?_⟩
  · have h1 := D.excl
    rw [S.hid]
    have h2 : (g.hide s.lost).excl.store = ⟨fun x => if s.lost x then none else g.excl.store.vars x, g.fresh, g.heap.log⟩ := by
      simp only [Machine.store, RMachine.excl, RMachine.hide]
      congr 1
      funext x
      simp only [Machine.view, veil]
      cases s.lost x <;> rfl
    rw [h2, h1]
    have h3 : g.fresh = s.all.excl.fresh := S1.fresh.symm
    have h4 : g.heap.log = s.all.excl.dropped := by rw [← h1]; rfl
    rw [h3, h4]; rfl
  · intro k
    rw [S.hid]
    have h1 := D.looks k
    by_cases hk : s.lost k = true
    · simp [RMachine.look, RMachine.hide, veil, SStore.look, FStore.seen, hk]
    · simp only [Bool.not_eq_true] at hk
      have e1 : (g.hide s.lost).look k = g.look k := by simp [RMachine.look, RMachine.hide, veil, hk]
      have e2 : s.seen.look k = s.all.look k := by simp [SStore.look, FStore.seen, hk, SStore.node?]
      rw [e1, e2, h1]
  · intro k j t u x y h1 h2
    have key : ∀ k t, s.seen.look k = some t → s.all.look k = some t := by
      intro k t h
      by_cases hk : s.lost k = true
      · simp [SStore.look, FStore.seen, hk] at h
      · simp only [Bool.not_eq_true] at hk
        simpa [SStore.look, FStore.seen, hk, SStore.node?] using h
    exact D.distinct k j t u x y (key k t h1) (key j u h2)

/-- **C65** every program that forgets values of any kind wherever it likes (trees, forests, iterators, handles, weak handles, guards)
has the results, panics and rejected statements that the specification says, in which a forgotten value exists for ever; afterwards, the
values that the program has names for, and the list of destroyed items, are those of the specification. -/
theorem c65_program (ops : List (FOp α)) (h1 : BoxedStmts RMachine.empty ops = true) (h2 : Allowed (runStmts fsstep FStore.empty ops).2) :
    (runStmts fstep RMachine.empty ops).2 = (runStmts fsstep FStore.empty ops).2 ∧
      ∃ φ, Described φ (runStmts fstep RMachine.empty ops).1 (runStmts fsstep FStore.empty ops).1.seen := by
  obtain ⟨g1, g', g2, -⟩ := FSim.program ops fsim_empty h1 h2
  exact ⟨g1, g2.described⟩

/-- **C65** no use of freed memory, no data race of borrows, no loop without end: no statement of such a program fails. -/
theorem c65_safe (ops : List (FOp α)) (h1 : BoxedStmts RMachine.empty ops = true) (h2 : Allowed (runStmts fsstep FStore.empty ops).2) :
    .bad ∉ (runStmts fstep RMachine.empty ops).2 := by
  rw [(c65_program ops h1 h2).1]
  generalize (runStmts fsstep FStore.empty ops).2 = os at h2
  induction os with
  | nil => simp
  | cons o os ih =>
    cases o <;> simp only [Allowed] at h2
    all_goals simp [ih h2]

/-- **C65** if the program compiles, each call returns what it would return had nothing been forgotten, and exactly the same items
are destroyed in the same order. -/
theorem c65_as_if_held (ops : List (FOp α)) (h1 : BoxedStmts RMachine.empty ops = true) (h2 : Allowed (runStmts fsstep FStore.empty ops).2)
    (h3 : .rejected ∉ (runStmts fstep RMachine.empty ops).2) :
    ofCalls ops (runStmts fstep RMachine.empty ops).2 = (runProg rstep RMachine.empty (FOp.calls ops)).2 ∧
      (runStmts fstep RMachine.empty ops).1.heap = (runProg rstep RMachine.empty (FOp.calls ops)).1.heap := by
  obtain ⟨g1, g', g2, g3⟩ := FSim.program ops fsim_empty h1 h2
  rw [g1] at h3
  rw [g3 h3, g1]
  exact ⟨rfl, by rw [g2.hid]; rfl⟩

/-! ### The hypotheses are met -/

/-- `1(2(3) 4)`, and `7`, become shared; a second handle to node `2` is forgotten, so is a guard for node `4`, an iterator, a weak handle,
and a plain tree `8(9)`. The root is dropped: node `2` stays (someone holds it), node `4`, which is borrowed for ever, panics when it is asked to
change. -/
def forgetDemo : List (FOp Nat) :=
  [.call (.excl (.treeNew 1)), .call (.excl (.treeNew 2)), .call (.excl (.treeNew 3)), .call (.excl (.treeNew 4)), .call (.excl (.pushBack 1 [] 2)),
   .call (.excl (.pushBack 0 [] 1)), .call (.excl (.pushBack 0 [] 3)), .call (.fromTree 0), .call (.front 4), .call (.back 4),
   .call (.clone 5), .forget 7, .call (.borrow 6), .forget 8, .forget 8, .call (.setData 6 40), .call (.data 6), .call (.iterRc 4), .forget 9,
   .call (.downgrade 5), .forget 10, .call (.excl (.treeNew 8)), .call (.excl (.treeNew 9)), .call (.excl (.pushBack 11 [] 12)), .forget 11,
   .call (.excl (.nodeCount 11 [])), .call (.drop 4), .call (.drop 5), .call (.isRoot 6), .call (.data 6), .call (.setData 6 5)]

def forgetDemoOut : List (Outcome Unit Nat) :=
  [.ok () (.var 0), .ok () (.var 1), .ok () (.var 2), .ok () (.var 3), .ok () .unit, .ok () .unit, .ok () .unit, .ok () (.var 4),
   .ok () (.var 5), .ok () (.var 6), .ok () (.var 7), .ok () .unit, .ok () (.var 8), .ok () .unit, .rejected, .panic (),
   .ok () (.item (some 4)), .ok () (.var 9), .ok () .unit, .ok () (.var 10), .ok () .unit, .ok () (.var 11), .ok () (.var 12),
   .ok () .unit, .ok () .unit, .rejected, .ok () .unit, .ok () .unit, .ok () (.bool true), .ok () (.item (some 4)), .panic ()]

attribute [irreducible] forgetDemo
theorem forgetDemo_boxed : BoxedStmts RMachine.empty forgetDemo = true := by decide +kernel
theorem forgetDemo_out : (runStmts fsstep FStore.empty forgetDemo).2 = forgetDemoOut := by decide +kernel
/-- Only `1` is destroyed: `2`, `3` and `8`, `9` are held for ever, `4` is held by variable `6`. -/
theorem forgetDemo_dropped : (runStmts fsstep FStore.empty forgetDemo).1.seen.excl.dropped = [1] := by decide +kernel

example : (runStmts fstep RMachine.empty forgetDemo).2 = forgetDemoOut ∧ (runStmts fstep RMachine.empty forgetDemo).1.excl.store.dropped = [1] := by
  obtain ⟨h1, φ, h2⟩ := c65_program forgetDemo forgetDemo_boxed (by rw [forgetDemo_out]; simp [forgetDemoOut, Allowed])
  exact ⟨h1.trans forgetDemo_out, by rw [h2.excl, forgetDemo_dropped]⟩

/-- Without rejected statements: a guard and a handle are forgotten. -/
def forgetDemo2 : List (FOp Nat) :=
  [.call (.excl (.treeNew 1)), .call (.fromTree 0), .call (.clone 1), .call (.borrowMut 1), .forget 3, .call (.data 2), .forget 1, .call (.excl (.treeNew 5)),
   .call (.pushBack 2 4), .call (.drop 2)]
attribute [irreducible] forgetDemo2
theorem forgetDemo2_out : (runStmts fsstep FStore.empty forgetDemo2).2 = [.ok () (.var 0), .ok () (.var 1), .ok () (.var 2), .ok () (.var 3), .ok () .unit,
    .panic (), .ok () .unit, .ok () (.var 4), .panic (), .ok () .unit] := by decide +kernel
example : ofCalls forgetDemo2 (runStmts fstep RMachine.empty forgetDemo2).2 = (runProg rstep RMachine.empty (FOp.calls forgetDemo2)).2 := by
  have h : Allowed (runStmts fsstep FStore.empty forgetDemo2).2 := by rw [forgetDemo2_out]; simp [Allowed]
  have hb : BoxedStmts RMachine.empty forgetDemo2 = true := by decide +kernel
  refine (c65_as_if_held forgetDemo2 hb h ?_).1
  rw [(c65_program forgetDemo2 hb h).1, forgetDemo2_out]; decide

end Trees
