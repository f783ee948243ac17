import Verif.Model.Reenter
import Verif.Proof.RcExcl
/-
Values that a running destructor cannot see are like variables of their own: shifting the numbering of variables by the number of
such values commutes with every call.
-/
namespace Trees
set_option linter.unusedSimpArgs false
set_option linter.unusedVariables false
variable {α β γ : Type}

/-- Put `P` in front of the variables. -/
def liftE (P : List γ) (e : Var → Option γ) : Var → Option γ := fun x => match P[x]? with
  | some a => some a
  | none => e (x - P.length)

theorem liftE_add {P : List γ} {e : Var → Option γ} (x : Var) : liftE P e (x + P.length) = e x := by
  unfold liftE
  rw [List.getElem?_eq_none (by exact Nat.le_add_left _ _)]
  show e (x + P.length - P.length) = e x
  rw [Nat.add_sub_cancel]

theorem liftE_lt {P : List γ} {e : Var → Option γ} {x : Var} (h : x < P.length) : liftE P e x = P[x]? := by
  unfold liftE
  rw [List.getElem?_eq_getElem h]

theorem liftE_upd {P : List γ} {e : Var → Option γ} {x : Var} {v : Option γ} : liftE P (upd e x v) = upd (liftE P e) (x + P.length) v := by
  funext z
  by_cases hz : z < P.length
  · rw [liftE_lt hz, upd_of_ne _ _ (by rintro rfl; exact absurd hz (Nat.not_lt.mpr (Nat.le_add_left _ _))), liftE_lt hz]
  · obtain ⟨y, rfl⟩ : ∃ y, z = y + P.length := ⟨z - P.length, by simp only [Var] at *; omega⟩
    rw [liftE_add]
    by_cases hy : y = x
    · subst hy; simp [upd]
    · rw [upd_of_ne _ _ hy, upd_of_ne _ _ (by intro h; exact hy (Nat.add_right_cancel h)), liftE_add]

theorem liftE_zero {a : γ} {P : List γ} {e : Var → Option γ} : liftE (a :: P) e 0 = some a := rfl
theorem liftE_succ {a : γ} {P : List γ} {e : Var → Option γ} (x : Var) : liftE (a :: P) e (x + 1) = liftE P e x := by
  unfold liftE
  rw [List.getElem?_cons_succ]
  cases P[x]? with
  | some b => rfl
  | none => simp only [List.length_cons]; congr 1; simp only [Var] at *; omega

def Machine.lift (P : List Handle) (m : Machine α) : Machine α := ⟨m.heap, liftE P m.env, m.fresh + P.length⟩
def Store.lift (V : List (Val α)) (S : Store α) : Store α := ⟨liftE V S.vars, S.fresh + V.length, S.dropped⟩

/-- Renumber the variables of a call. -/
def Op.up (n : Nat) : Op α → Op α
  | .treeNew d => .treeNew d
  | .forestNew => .forestNew
  | .pushFront x p y => .pushFront (x + n) p (y + n)
  | .pushBack x p y => .pushBack (x + n) p (y + n)
  | .popFront x p => .popFront (x + n) p
  | .popBack x p => .popBack (x + n) p
  | .prepend x p y => .prepend (x + n) p (y + n)
  | .append x p y => .append (x + n) p (y + n)
  | .insertPrevSib x l y => .insertPrevSib (x + n) l (y + n)
  | .insertNextSib x l y => .insertNextSib (x + n) l (y + n)
  | .detach x l => .detach (x + n) l
  | .abandon x => .abandon (x + n)
  | .setData x l d => .setData (x + n) l d
  | .drop x => .drop (x + n)
  | .intoIter x => .intoIter (x + n)
  | .iterNext x => .iterNext (x + n)
  | .iterLen x => .iterLen (x + n)
  | .data x l => .data (x + n) l
  | .degree x p => .degree (x + n) p
  | .nodeCount x p => .nodeCount (x + n) p
  | .hasNoChild x p => .hasNoChild (x + n) p
  | .childData x p => .childData (x + n) p
  | .frontData x p => .frontData (x + n) p
  | .backData x p => .backData (x + n) p
  | .mapBfs x l f => .mapBfs (x + n) l f
  | .mapBfsForest x p f => .mapBfsForest (x + n) p f
  | .rebuild x f => .rebuild (x + n) f
  | .bfs x l k => .bfs (x + n) l k
  | .bfsChildren x p k => .bfsChildren (x + n) p k
  | .intoBfs x k => .intoBfs (x + n) k
  | .bfsMut x l k f => .bfsMut (x + n) l k f
  | .bfsChildrenMut x p k f => .bfsChildrenMut (x + n) p k f
  | .treeFromTuple t => .treeFromTuple t
  | .forestFromTuple ts => .forestFromTuple ts

def Out.up (n : Nat) : Out α → Out α
  | .var v => .var (v + n)
  | o => o

def Outcome.up {σ τ : Type} (n : Nat) (f : σ → τ) : Outcome σ α → Outcome τ α
  | .ok s o => .ok (f s) (o.up n)
  | .panic s => .panic (f s)
  | .rejected => .rejected
  | .bad => .bad

theorem Out.up_inj {n : Nat} {o o' : Out α} (h : o.up n = o'.up n) : o = o' := by
  cases o <;> cases o' <;> simp_all [Out.up]

section mach
variable {P : List Handle} {m : Machine α}

theorem lift_run {env : Var → Option Handle} {c : M α β} {k k' : β → Heap α → Outcome (Machine α) α}
    (hk : ∀ b h, k' b h = (k b h).up P.length (Machine.lift P)) :
    (m.lift P).run (liftE P env) c k' = (m.run env c k).up P.length (Machine.lift P) := by
  unfold Machine.run
  rw [show (m.lift P).heap = m.heap from rfl]
  cases c m.heap with
  | ok b h => exact hk b h
  | err e h => cases e <;> rfl

theorem lift_onKids {x : Var} {p : Path} {k k' : Handle → Addr → Outcome (Machine α) α}
    (hk : ∀ hd n, k' hd n = (k hd n).up P.length (Machine.lift P)) :
    (m.lift P).onKids (x + P.length) p k' = (m.onKids x p k).up P.length (Machine.lift P) := by
  unfold Machine.onKids
  rw [show (m.lift P).env (x + P.length) = m.env x from liftE_add x]
  cases m.env x with
  | none => rfl
  | some hd =>
    dsimp only
    split
    · rfl
    · refine lift_run fun b h => ?_
      cases b with
      | none => rfl
      | some n => exact hk _ _

theorem lift_onNode {x : Var} {l : Loc} {k k' : Addr → Outcome (Machine α) α}
    (hk : ∀ n, k' n = (k n).up P.length (Machine.lift P)) :
    (m.lift P).onNode (x + P.length) l k' = (m.onNode x l k).up P.length (Machine.lift P) := by
  unfold Machine.onNode
  rw [show (m.lift P).env (x + P.length) = m.env x from liftE_add x]
  cases m.env x with
  | none => rfl
  | some hd =>
    dsimp only
    split
    · rfl
    · cases l with
      | root => cases hd <;> first | exact hk _ | rfl
      | child q i =>
        refine lift_run fun b h => ?_
        cases b with
        | none => rfl
        | some n => exact hk _

theorem lift_takeTree {x y : Var} {k k' : Addr → Outcome (Machine α) α} (hk : ∀ n, k' n = (k n).up P.length (Machine.lift P)) :
    (m.lift P).takeTree (x + P.length) (y + P.length) k' = (m.takeTree x y k).up P.length (Machine.lift P) := by
  unfold Machine.takeTree
  rw [show (m.lift P).env (y + P.length) = m.env y from liftE_add y]
  simp only [Nat.add_right_cancel_iff]
  split
  · rfl
  · cases m.env y with
    | none => rfl
    | some hd => cases hd <;> first | exact hk _ | rfl

theorem lift_takeForest {x y : Var} {k k' : Addr → Outcome (Machine α) α} (hk : ∀ n, k' n = (k n).up P.length (Machine.lift P)) :
    (m.lift P).takeForest (x + P.length) (y + P.length) k' = (m.takeForest x y k).up P.length (Machine.lift P) := by
  unfold Machine.takeForest
  rw [show (m.lift P).env (y + P.length) = m.env y from liftE_add y]
  simp only [Nat.add_right_cancel_iff]
  split
  · rfl
  · cases m.env y with
    | none => rfl
    | some hd => cases hd <;> first | exact hk _ | rfl

theorem lift_retVar {h : Heap α} {env : Var → Option Handle} {hd : Handle} :
    (m.lift P).retVar h (liftE P env) hd = (m.retVar h env hd).up P.length (Machine.lift P) := by
  simp only [Machine.retVar, Outcome.up, Machine.lift, liftE_upd, Out.up, Outcome.ok.injEq, and_true, Machine.mk.injEq, true_and]
  omega

theorem lift_retPop {h : Heap α} {c : Option Addr} : (m.lift P).retPop h c = (m.retPop h c).up P.length (Machine.lift P) := by
  cases c with
  | none => rfl
  | some c => exact lift_retVar

theorem lift_setEnv {x : Var} {v : Option Handle} : (m.lift P).setEnv (x + P.length) v = liftE P (m.setEnv x v) := liftE_upd.symm

/-- Calls do not depend on the numbering of variables. -/
theorem lift_step (P : List Handle) (m : Machine α) (op : Op α) : step (m.lift P) (op.up P.length) = (step m op).up P.length (Machine.lift P) := by
  cases op
  case treeNew d => simp only [step, Op.up]; exact lift_run fun _ _ => lift_retVar
  case forestNew => simp only [step, Op.up]; exact lift_run fun _ _ => lift_retVar
  case treeFromTuple t => simp only [step, Op.up]; split; exact lift_run fun _ _ => lift_retVar; rfl
  case forestFromTuple t => simp only [step, Op.up]; split; exact lift_run fun _ _ => lift_retVar; rfl
  case pushFront x p y | pushBack x p y =>
    simp only [step, Op.up, lift_setEnv]
    exact lift_takeTree fun t => lift_onKids fun _ n => lift_run fun _ _ => rfl
  case prepend x p y | append x p y =>
    simp only [step, Op.up, lift_setEnv]
    exact lift_takeForest fun t => lift_onKids fun _ n => lift_run fun _ _ => rfl
  case insertPrevSib x p y | insertNextSib x p y =>
    simp only [step, Op.up, lift_setEnv]
    exact lift_takeTree fun t => lift_onNode fun n => lift_run fun _ _ => rfl
  case popFront x p | popBack x p =>
    exact lift_onKids fun _ n => lift_run fun _ _ => lift_retPop
  case detach x l | mapBfs x l f =>
    exact lift_onNode fun n => lift_run fun _ _ => lift_retVar
  case mapBfsForest x l f =>
    exact lift_onKids fun _ n => lift_run fun _ _ => lift_retVar
  case setData x l d | data x l | bfs x l k | bfsMut x l k f =>
    exact lift_onNode fun n => lift_run fun _ _ => rfl
  case degree x p | nodeCount x p | hasNoChild x p | childData x p | frontData x p | backData x p | bfsChildren x p k | bfsChildrenMut x p k f =>
    exact lift_onKids fun _ n => lift_run fun _ _ => rfl
  case abandon x | drop x | intoIter x | iterNext x | iterLen x | rebuild x f | intoBfs x k =>
    simp only [step, Op.up, lift_setEnv]
    rw [show (m.lift P).env (x + P.length) = m.env x from liftE_add x]
    cases m.env x with
    | none => rfl
    | some hd =>
      cases hd <;> first
        | rfl
        | exact lift_run fun _ _ => lift_retVar
        | exact lift_run fun _ _ => lift_retPop
        | exact lift_run fun _ _ => rfl
        | exact lift_retVar

end mach

section store
variable {V : List (Val α)} {S : Store α}

theorem Store.set_eq {S : Store α} {x : Var} {v : Option (Val α)} : S.set x v = ⟨upd S.vars x v, S.fresh, S.dropped⟩ := rfl
theorem Store.bind_eq {S : Store α} {v : Val α} : S.bind v = ⟨upd S.vars S.fresh (some v), S.fresh + 1, S.dropped⟩ := rfl

theorem slift_set {x : Var} {v : Option (Val α)} : (S.lift V).set (x + V.length) v = (S.set x v).lift V := by
  simp only [Store.set_eq, Store.lift, liftE_upd]

theorem slift_bind {v : Val α} : (S.lift V).bind v = (S.bind v).lift V := by
  simp only [Store.bind_eq, Store.lift, liftE_upd, Store.mk.injEq, true_and, and_true]
  omega

theorem slift_drop {ds : List α} : (S.lift V).drop ds = (S.drop ds).lift V := rfl

theorem slift_setKids {x : Var} {v : Val α} {p : Path} {f : List (RTree α) → List (RTree α)} :
    (S.lift V).setKids (x + V.length) v p f = (S.setKids x v p f).lift V := slift_set

theorem slift_onKids {x : Var} {p : Path} {k k' : Val α → List (RTree α) → Outcome (Store α) α}
    (hk : ∀ v us, k' v us = (k v us).up V.length (Store.lift V)) :
    (S.lift V).onKids (x + V.length) p k' = (S.onKids x p k).up V.length (Store.lift V) := by
  unfold Store.onKids
  rw [show (S.lift V).vars (x + V.length) = S.vars x from liftE_add x]
  cases S.vars x with
  | none => rfl
  | some v =>
    dsimp only
    split
    · rfl
    · cases kidsAt v.kids p with
      | none => rfl
      | some us => exact hk _ _

theorem slift_onNode {x : Var} {l : Loc} {r r' : Val α → RTree α → Outcome (Store α) α}
    {k k' : Val α → Path → Nat → List (RTree α) → RTree α → Outcome (Store α) α}
    (hr : ∀ v t, r' v t = (r v t).up V.length (Store.lift V))
    (hk : ∀ v q i us t, k' v q i us t = (k v q i us t).up V.length (Store.lift V)) :
    (S.lift V).onNode (x + V.length) l r' k' = (S.onNode x l r k).up V.length (Store.lift V) := by
  unfold Store.onNode
  rw [show (S.lift V).vars (x + V.length) = S.vars x from liftE_add x]
  cases S.vars x with
  | none => rfl
  | some v =>
    dsimp only
    split
    · rfl
    · cases l with
      | root => cases v <;> first | exact hr _ _ | rfl
      | child q i =>
        dsimp only
        cases kidsAt v.kids q with
        | none => rfl
        | some us =>
          dsimp only
          cases us[i]? with
          | none => rfl
          | some t => exact hk _ _ _ _ _

theorem slift_takeTree {x y : Var} {k k' : RTree α → Outcome (Store α) α} (hk : ∀ n, k' n = (k n).up V.length (Store.lift V)) :
    (S.lift V).takeTree (x + V.length) (y + V.length) k' = (S.takeTree x y k).up V.length (Store.lift V) := by
  unfold Store.takeTree
  rw [show (S.lift V).vars (y + V.length) = S.vars y from liftE_add y]
  simp only [Nat.add_right_cancel_iff]
  split
  · rfl
  · cases S.vars y with
    | none => rfl
    | some v => cases v <;> first | exact hk _ | rfl

theorem slift_takeForest {x y : Var} {k k' : List (RTree α) → Outcome (Store α) α} (hk : ∀ n, k' n = (k n).up V.length (Store.lift V)) :
    (S.lift V).takeForest (x + V.length) (y + V.length) k' = (S.takeForest x y k).up V.length (Store.lift V) := by
  unfold Store.takeForest
  rw [show (S.lift V).vars (y + V.length) = S.vars y from liftE_add y]
  simp only [Nat.add_right_cancel_iff]
  split
  · rfl
  · cases S.vars y with
    | none => rfl
    | some v => cases v <;> first | exact hk _ | rfl

theorem slift_specStep (V : List (Val α)) (S : Store α) (op : Op α) :
    specStep (S.lift V) (op.up V.length) = (specStep S op).up V.length (Store.lift V) := by
  have hfr : (S.lift V).fresh = S.fresh + V.length := rfl
  cases op
  case treeNew d | forestNew => simp only [specStep, Op.up, slift_bind, Outcome.up, Out.up, hfr]
  case treeFromTuple t | forestFromTuple t =>
    simp only [specStep, Op.up]; split
    · simp only [slift_bind, Outcome.up, Out.up, hfr]
    · rfl
  case pushFront x p y | pushBack x p y =>
    simp only [specStep, Op.up, slift_set, slift_setKids]
    exact slift_takeTree fun t => slift_onKids fun _ n => rfl
  case prepend x p y | append x p y =>
    simp only [specStep, Op.up, slift_set, slift_setKids]
    exact slift_takeForest fun t => slift_onKids fun _ n => rfl
  case insertPrevSib x p y | insertNextSib x p y =>
    simp only [specStep, Op.up, slift_set, slift_setKids]
    exact slift_takeTree fun t => slift_onNode (fun _ _ => rfl) fun _ _ _ _ _ => rfl
  case popFront x p =>
    simp only [specStep, Op.up]
    refine slift_onKids fun v us => ?_
    cases us with
    | nil => rfl
    | cons t ts => simp only [slift_setKids, slift_bind, Outcome.up, Out.up, hfr]
  case popBack x p =>
    simp only [specStep, Op.up]
    refine slift_onKids fun v us => ?_
    cases us.getLast? with
    | none => rfl
    | some t => simp only [slift_setKids, slift_bind, Outcome.up, Out.up, hfr]
  case detach x l =>
    simp only [specStep, Op.up]
    refine slift_onNode (fun _ _ => rfl) fun v q i us t => ?_
    simp only [slift_setKids, slift_bind, Outcome.up, Out.up, hfr]
  case mapBfs x l f =>
    simp only [specStep, Op.up]
    refine slift_onNode (fun _ _ => ?_) fun v q i us t => ?_ <;>
    simp only [slift_setKids, slift_bind, Outcome.up, Out.up, hfr]
  case mapBfsForest x l f =>
    simp only [specStep, Op.up]
    refine slift_onKids fun v us => ?_
    simp only [slift_setKids, slift_bind, Outcome.up, Out.up, hfr]
  case setData x l d | data x l | bfs x l k | bfsMut x l k f =>
    simp only [specStep, Op.up, slift_set, slift_setKids]
    exact slift_onNode (fun _ _ => rfl) fun v q i us t => rfl
  case degree x p | nodeCount x p | hasNoChild x p | childData x p | frontData x p | backData x p | bfsChildren x p k | bfsChildrenMut x p k f =>
    simp only [specStep, Op.up, slift_set, slift_setKids]
    exact slift_onKids fun _ n => rfl
  case abandon x | drop x | intoIter x | iterNext x | iterLen x | rebuild x f | intoBfs x k =>
    simp only [specStep, Op.up, slift_set]
    rw [show (S.lift V).vars (x + V.length) = S.vars x from liftE_add x]
    cases S.vars x with
    | none => rfl
    | some v =>
      cases v with
      | tree t => first | rfl | simp only [slift_bind, Outcome.up, Out.up, hfr]
      | forest ts => first | rfl | simp only [slift_bind, Outcome.up, Out.up, hfr]
      | iter ts => first | rfl | (cases ts <;> first | rfl | simp only [slift_bind, Outcome.up, Out.up, hfr])

end store
end Trees
