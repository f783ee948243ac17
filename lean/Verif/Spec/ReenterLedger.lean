import Verif.Spec.Reenter
import Verif.Spec.Ledger
/-
Bookkeeping of data items in programs whose destructors use the crate: what all the calls, also those made by destructors, bring in and
hand out.
-/
namespace Trees
variable {α : Type} {σ : Type}

/-- Items brought in, items handed out. -/
def plus (a b : List α × List α) : List α × List α := (a.1 ++ b.1, a.2 ++ b.2)

/-- The items of the calls made while items are destroyed one after the other; `L d S`: those made by the destructor of `d`. -/
def destroyLedger (D : α → Store α → Run (Store α)) (L : α → Store α → List α × List α) : List α → Store α → List α × List α
  | [], _ => ([], [])
  | d :: ds, S => plus (L d (S.drop [d])) (match D d (S.drop [d]) with
    | .done S' => destroyLedger D L ds S'
    | _ => ([], []))

/-- The items of the calls made by the destructors that a call runs. -/
def Store.inside (D : α → Store α → Run (Store α)) (L : α → Store α → List α × List α) (S : Store α) : Op α → List α × List α
  | .drop x => match S.vars x with
    | some v => destroyLedger D L v.post (S.set x none)
    | none => ([], [])
  | .setData x l d => match specStep S (.data x l), specStep S (.setData x l d) with
    | .ok _ (.item (some old)), .ok S' .unit => L old (S'.set x none)
    | _, _ => ([], [])
  | .insertPrevSib x l y => match S.vars y, specStep S (.insertPrevSib x l y) with
    | some v, .panic _ => destroyLedger D L v.post ((S.set y none).set x none)
    | _, _ => ([], [])
  | .insertNextSib x l y => match S.vars y, specStep S (.insertNextSib x l y) with
    | some v, .panic _ => destroyLedger D L v.post ((S.set y none).set x none)
    | _, _ => ([], [])
  | _ => ([], [])

/-- The items of the calls of a program. -/
def ledgerRun (st : σ → Op α → Run (Outcome σ α)) (L : σ → Op α → List α × List α) : σ → List (Op α) → List α × List α
  | _, [] => ([], [])
  | s, op :: ops => match st s op with
    | .done (.ok s' _) => plus (L s op) (ledgerRun st L s' ops)
    | .done (.panic s') => plus (L s op) (ledgerRun st L s' ops)
    | .done _ => ledgerRun st L s ops
    | _ => ([], [])

/-- All items that a program and the destructors running in it bring in, and all that are handed out to them. -/
def ledgerReenter (dtor : α → List (Op α)) : Nat → Store α → List (Op α) → List α × List α
  | 0, _, _ => ([], [])
  | n+1, S, ops =>
    let D := fun d S => (specExecR dtor n S (dtor d)).map Prod.fst
    let L := fun d S => ledgerReenter dtor n S (dtor d)
    ledgerRun (specStepR D) (fun S op => plus (S.brings op, S.takes op) (S.inside D L op)) S ops

end Trees
