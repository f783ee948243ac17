import Verif.Spec.Forget
import Verif.Proof.SharedCalls2
/-
`mem::forget`: hiding variables commutes with every call.
-/
namespace Trees
set_option linter.unusedSimpArgs false
set_option linter.unusedVariables false
variable {α β : Type}

/-- Variables in `F` are not there. -/
def veil {γ : Type} (F : Var → Bool) (e : Var → Option γ) : Var → Option γ := fun x => if F x then none else e x

theorem veil_of {γ : Type} {F : Var → Bool} {e : Var → Option γ} {x : Var} (h : F x = false) : veil F e x = e x := by simp [veil, h]
theorem veil_lost {γ : Type} {F : Var → Bool} {e : Var → Option γ} {x : Var} (h : F x = true) : veil F e x = none := by simp [veil, h]
theorem veil_upd {γ : Type} {F : Var → Bool} {e : Var → Option γ} {x : Var} {v : Option γ} (h : F x = false) : veil F (upd e x v) = upd (veil F e) x v := by
  funext z
  simp only [veil, upd]
  split <;> split <;> simp_all

def Machine.hide (F : Var → Bool) (m : Machine α) : Machine α := ⟨m.heap, veil F m.env, m.fresh⟩
def RMachine.hide (F : Var → Bool) (m : RMachine α) : RMachine α := ⟨m.heap, veil F m.env, veil F m.refs, m.fresh⟩

section excl
variable {F : Var → Bool} {m : Machine α}

theorem hide_run {env : Var → Option Handle} {c : M α β} {k k' : β → Heap α → Outcome (Machine α) α} (hk : ∀ b h, k' b h = (k b h).map (Machine.hide F)) :
    (m.hide F).run (veil F env) c k' = (m.run env c k).map (Machine.hide F) := by
  unfold Machine.run
  rw [show (m.hide F).heap = m.heap from rfl]
  cases c m.heap with
  | ok b h => exact hk b h
  | err e h => cases e <;> rfl

theorem hide_onKids {x : Var} (hx : F x = false) {p : Path} {k k' : Handle → Addr → Outcome (Machine α) α}
    (hk : ∀ hd n, k' hd n = (k hd n).map (Machine.hide F)) : (m.hide F).onKids x p k' = (m.onKids x p k).map (Machine.hide F) := by
  unfold Machine.onKids
  rw [show (m.hide F).env x = m.env x from veil_of hx]
  cases m.env x with
  | none => rfl
  | some hd =>
    dsimp only
    split
    · rfl
    · refine hide_run fun b h => ?_
      cases b with
      | none => rfl
      | some n => exact hk _ _

theorem hide_onNode {x : Var} (hx : F x = false) {l : Loc} {k k' : Addr → Outcome (Machine α) α}
    (hk : ∀ n, k' n = (k n).map (Machine.hide F)) : (m.hide F).onNode x l k' = (m.onNode x l k).map (Machine.hide F) := by
  unfold Machine.onNode
  rw [show (m.hide F).env x = m.env x from veil_of hx]
  cases m.env x with
  | none => rfl
  | some hd =>
    dsimp only
    split
    · rfl
    · cases l with
      | root => cases hd <;> first | exact hk _ | rfl
      | child q i =>
        refine hide_run fun b h => ?_
        cases b with
        | none => rfl
        | some n => exact hk _

theorem hide_takeTree {x y : Var} (hy : F y = false) {k k' : Addr → Outcome (Machine α) α}
    (hk : ∀ n, k' n = (k n).map (Machine.hide F)) : (m.hide F).takeTree x y k' = (m.takeTree x y k).map (Machine.hide F) := by
  unfold Machine.takeTree
  rw [show (m.hide F).env y = m.env y from veil_of hy]
  split
  · rfl
  · cases m.env y with
    | none => rfl
    | some hd => cases hd <;> first | exact hk _ | rfl

theorem hide_takeForest {x y : Var} (hy : F y = false) {k k' : Addr → Outcome (Machine α) α}
    (hk : ∀ n, k' n = (k n).map (Machine.hide F)) : (m.hide F).takeForest x y k' = (m.takeForest x y k).map (Machine.hide F) := by
  unfold Machine.takeForest
  rw [show (m.hide F).env y = m.env y from veil_of hy]
  split
  · rfl
  · cases m.env y with
    | none => rfl
    | some hd => cases hd <;> first | exact hk _ | rfl

theorem hide_ret {h : Heap α} {env : Var → Option Handle} {o : Out α} : (m.hide F).ret h (veil F env) o = (m.ret h env o).map (Machine.hide F) := rfl

theorem hide_retVar (hf : F m.fresh = false) {h : Heap α} {env : Var → Option Handle} {hd : Handle} :
    (m.hide F).retVar h (veil F env) hd = (m.retVar h env hd).map (Machine.hide F) := by
  simp only [Machine.retVar, Outcome.map, Machine.hide, veil_upd hf]

theorem hide_retPop (hf : F m.fresh = false) {h : Heap α} {c : Option Addr} : (m.hide F).retPop h c = (m.retPop h c).map (Machine.hide F) := by
  cases c with
  | none => rfl
  | some c => exact hide_retVar hf

theorem hide_setEnv {x : Var} (hx : F x = false) {v : Option Handle} : (m.hide F).setEnv x v = veil F (m.setEnv x v) := (veil_upd hx).symm

/-- A call that names no hidden variable. -/
theorem hide_step (hf : F m.fresh = false) (op : Op α) (hv : ∀ x ∈ op.vars, F x = false) : step (m.hide F) op = (step m op).map (Machine.hide F) := by
  cases op
  case treeNew d => simp only [step]; exact hide_run fun _ _ => hide_retVar hf
  case forestNew => simp only [step]; exact hide_run fun _ _ => hide_retVar hf
  case treeFromTuple t => simp only [step]; split; exact hide_run fun _ _ => hide_retVar hf; rfl
  case forestFromTuple t => simp only [step]; split; exact hide_run fun _ _ => hide_retVar hf; rfl
  case pushFront x p y | pushBack x p y =>
    have hx := hv x (by simp [Op.vars]); have hy := hv y (by simp [Op.vars])
    simp only [step, hide_setEnv hy]
    exact hide_takeTree hy fun t => hide_onKids hx fun _ n => hide_run fun _ _ => hide_ret
  case prepend x p y | append x p y =>
    have hx := hv x (by simp [Op.vars]); have hy := hv y (by simp [Op.vars])
    simp only [step, hide_setEnv hy]
    exact hide_takeForest hy fun t => hide_onKids hx fun _ n => hide_run fun _ _ => hide_ret
  case insertPrevSib x p y | insertNextSib x p y =>
    have hx := hv x (by simp [Op.vars]); have hy := hv y (by simp [Op.vars])
    simp only [step, hide_setEnv hy]
    exact hide_takeTree hy fun t => hide_onNode hx fun n => hide_run fun _ _ => hide_ret
  case popFront x p | popBack x p =>
    exact hide_onKids (hv x (by simp [Op.vars])) fun _ n => hide_run fun _ _ => hide_retPop hf
  case detach x l | mapBfs x l f =>
    exact hide_onNode (hv x (by simp [Op.vars])) fun n => hide_run fun _ _ => hide_retVar hf
  case mapBfsForest x l f =>
    exact hide_onKids (hv x (by simp [Op.vars])) fun _ n => hide_run fun _ _ => hide_retVar hf
  case setData x l d | data x l | bfs x l k | bfsMut x l k f =>
    exact hide_onNode (hv x (by simp [Op.vars])) fun n => hide_run fun _ _ => hide_ret
  case degree x p | nodeCount x p | hasNoChild x p | childData x p | frontData x p | backData x p | bfsChildren x p k | bfsChildrenMut x p k f =>
    exact hide_onKids (hv x (by simp [Op.vars])) fun _ n => hide_run fun _ _ => hide_ret
  case abandon x | drop x | intoIter x | iterNext x | iterLen x | rebuild x f | intoBfs x k =>
    have hx := hv x (by simp [Op.vars])
    simp only [step, hide_setEnv hx]
    rw [show (m.hide F).env x = m.env x from veil_of hx]
    cases m.env x with
    | none => rfl
    | some hd =>
      cases hd <;> first
        | rfl
        | exact hide_run fun _ _ => hide_retVar hf
        | exact hide_run fun _ _ => hide_retPop hf
        | exact hide_run fun _ _ => hide_ret
        | exact hide_retVar hf

end excl

section shared
variable {F : Var → Bool} {m : RMachine α}

theorem rhide_run {env : Var → Option Handle} {refs : Var → Option Ref} {c : M α β} {k k' : β → Heap α → Outcome (RMachine α) α}
    (hk : ∀ b h, k' b h = (k b h).map (RMachine.hide F)) :
    (m.hide F).run (veil F env) (veil F refs) c k' = (m.run env refs c k).map (RMachine.hide F) := by
  unfold RMachine.run
  rw [show (m.hide F).heap = m.heap from rfl]
  cases c m.heap with
  | ok b h => exact hk b h
  | err e h => cases e <;> rfl

theorem rhide_onRc {x : Var} (hx : F x = false) {k k' : RcRef → Outcome (RMachine α) α} (hk : ∀ r, k' r = (k r).map (RMachine.hide F)) :
    (m.hide F).onRc x k' = (m.onRc x k).map (RMachine.hide F) := by
  unfold RMachine.onRc
  rw [show (m.hide F).refs x = m.refs x from veil_of hx]
  cases m.refs x with
  | none => rfl
  | some r => cases r <;> first | exact hk _ | rfl

theorem rhide_takeTree {y : Var} (hy : F y = false) {k k' : Addr → Outcome (RMachine α) α} (hk : ∀ n, k' n = (k n).map (RMachine.hide F)) :
    (m.hide F).takeTree y k' = (m.takeTree y k).map (RMachine.hide F) := by
  unfold RMachine.takeTree
  rw [show (m.hide F).env y = m.env y from veil_of hy]
  cases m.env y with
  | none => rfl
  | some hd => cases hd <;> first | exact hk _ | rfl

theorem rhide_takeForest {y : Var} (hy : F y = false) {k k' : Addr → Outcome (RMachine α) α} (hk : ∀ n, k' n = (k n).map (RMachine.hide F)) :
    (m.hide F).takeForest y k' = (m.takeForest y k).map (RMachine.hide F) := by
  unfold RMachine.takeForest
  rw [show (m.hide F).env y = m.env y from veil_of hy]
  cases m.env y with
  | none => rfl
  | some hd => cases hd <;> first | exact hk _ | rfl

theorem rhide_call {x : Var} (hx : F x = false) {c : RcRef → M α β} {o : β → Out α} : (m.hide F).call x c o = (m.call x c o).map (RMachine.hide F) :=
  rhide_onRc hx fun r => rhide_run fun b h => rfl

theorem rhide_bindRef (hf : F m.fresh = false) {h : Heap α} {refs : Var → Option Ref} {r : Ref} :
    (m.hide F).bindRef h (veil F refs) r = (m.bindRef h refs r).map (RMachine.hide F) := by
  simp only [RMachine.bindRef, Outcome.map, RMachine.hide, veil_upd hf]

theorem rhide_retRc (hf : F m.fresh = false) {h : Heap α} {refs : Var → Option Ref} {o : Option RcRef} :
    (m.hide F).retRc h (veil F refs) o = (m.retRc h refs o).map (RMachine.hide F) := by
  cases o with
  | none => rfl
  | some r => exact rhide_bindRef hf

theorem rhide_consume {x y : Var} (hx : F x = false) (hy : F y = false) {c : RcRef → M α Unit} :
    (m.hide F).consume x y c = (m.consume x y c).map (RMachine.hide F) := by
  refine rhide_onRc hx fun r => ?_
  rw [show (upd (m.hide F).env y none) = veil F (upd m.env y none) from (veil_upd hy).symm]
  exact rhide_run fun b h => rfl

/-- A call that names no hidden variable, and moves no handle with a hidden guard. -/
theorem hide_rstep (hf : F m.fresh = false) (op : ROp α) (hv : ∀ x ∈ op.vars, F x = false)
    (hg : ∀ k ∈ op.moved, (m.hide F).guarded k = m.guarded k) : rstep (m.hide F) op = (rstep m op).map (RMachine.hide F) := by
  cases op
  case excl op =>
    have h1 : step (m.hide F).excl op = _ := hide_step (m := m.excl) hf op hv
    simp only [rstep, h1]
    cases step m.excl op <;> rfl
  case fromTree x =>
    have hx := hv x (by simp [ROp.vars])
    refine rhide_takeTree hx fun t => ?_
    rw [show (upd (m.hide F).env x none) = veil F (upd m.env x none) from (veil_upd hx).symm]
    refine rhide_run fun r h => ?_
    simp only [Outcome.map, RMachine.hide, veil_upd hf]
  case clone k | front k | back k | parent k | popFront k | popBack k | borrow k | borrowMut k | iterRc k =>
    have hx := hv k (by simp [ROp.vars])
    refine rhide_onRc hx fun r => rhide_run fun q h => ?_
    first | exact rhide_bindRef hf | exact rhide_retRc hf
  case isRoot k | data k | degree k | nodeCount k | hasNoChild k | detach k | setData k d => exact rhide_call (hv k (by simp [ROp.vars]))
  case pushFront k y | pushBack k y | insertPrevSib k y | insertNextSib k y =>
    exact rhide_takeTree (hv y (by simp [ROp.vars])) fun t => rhide_consume (hv k (by simp [ROp.vars])) (hv y (by simp [ROp.vars]))
  case prepend k y | append k y =>
    exact rhide_takeForest (hv y (by simp [ROp.vars])) fun t => rhide_consume (hv k (by simp [ROp.vars])) (hv y (by simp [ROp.vars]))
  case downgrade k => exact rhide_onRc (hv k (by simp [ROp.vars])) fun r => rhide_bindRef hf
  case deepClone k f =>
    refine rhide_onRc (hv k (by simp [ROp.vars])) fun r => rhide_run fun q h => ?_
    simp only [Outcome.map, RMachine.hide, veil_upd hf]
  case drop k =>
    have hx := hv k (by simp [ROp.vars])
    have h2 : upd (m.hide F).refs k none = veil F (upd m.refs k none) := (veil_upd hx).symm
    simp only [rstep, h2, hg k (by simp [ROp.moved])]
    rw [show (m.hide F).refs k = m.refs k from veil_of hx]
    cases m.refs k with
    | none => rfl
    | some r =>
      cases r with
      | rc r =>
        dsimp only
        split
        · rfl
        · exact rhide_run fun _ _ => rfl
      | weak r => exact rhide_run fun _ _ => rfl
      | guard a b c => exact rhide_run fun _ _ => rfl
      | iter it => rfl
  case intoTree k =>
    have hx := hv k (by simp [ROp.vars])
    have h2 : upd (m.hide F).refs k none = veil F (upd m.refs k none) := (veil_upd hx).symm
    simp only [rstep, h2, hg k (by simp [ROp.moved])]
    refine rhide_onRc hx fun r => ?_
    split
    · rfl
    · refine rhide_run fun _ _ => ?_
      simp only [Outcome.map, RMachine.hide, veil_upd hf]
  case guardRead k | guardWrite k d | upgrade k =>
    have hx := hv k (by simp [ROp.vars])
    simp only [rstep]
    rw [show (m.hide F).refs k = m.refs k from veil_of hx]
    cases m.refs k with
    | none => rfl
    | some r =>
      cases r
      case guard a b c => cases c <;> first | rfl | exact rhide_run fun _ _ => rfl
      all_goals first | rfl | exact rhide_run fun _ _ => rhide_retRc hf
  case iterNext k | iterClone k | iterLen k =>
    have hx := hv k (by simp [ROp.vars])
    simp only [rstep]
    rw [show (m.hide F).refs k = m.refs k from veil_of hx]
    cases m.refs k with
    | none => rfl
    | some r =>
      cases r <;> first
        | rfl
        | exact rhide_bindRef hf
        | (refine rhide_run fun q h => ?_; rw [show upd (m.hide F).refs k _ = veil F (upd m.refs k _) from (veil_upd hx).symm]; exact rhide_retRc hf)

/-- A call that names a hidden variable is rejected by the compiler. -/
theorem hide_rejected (op : ROp α) {x : Var} (hx : x ∈ op.vars) (hF : F x = true) : rstep (m.hide F) op = .rejected := by
  have h1 : (m.hide F).env x = none := veil_lost hF
  have h2 : (m.hide F).refs x = none := veil_lost hF
  generalize m.hide F = g at h1 h2
  cases op
  case excl op =>
    have h3 : step g.excl op = .rejected := by
      have h1 : g.excl.env x = none := h1
      generalize g.excl = e at h1
      cases op <;> simp only [ROp.vars, Op.vars, List.not_mem_nil, List.mem_singleton, List.mem_cons, or_false] at hx
      case pushFront | pushBack | prepend | append | insertPrevSib | insertNextSib =>
        simp only [step, Machine.takeTree, Machine.takeForest, Machine.onKids, Machine.onNode]
        rcases hx with rfl | rfl
        · simp only [h1]; split <;> first | rfl | (split <;> rfl)
        · simp only [h1]; split <;> rfl
      all_goals subst hx; simp only [step, Machine.onKids, Machine.onNode, h1]
    simp only [rstep, h3]
  all_goals simp only [ROp.vars, List.not_mem_nil, List.mem_singleton, List.mem_cons, or_false] at hx
  case pushFront | pushBack | prepend | append | insertPrevSib | insertNextSib =>
    simp only [rstep, RMachine.takeTree, RMachine.takeForest, RMachine.consume, RMachine.onRc]
    rcases hx with rfl | rfl
    · simp only [h2]; split <;> rfl
    · simp only [h1]
  all_goals subst hx; simp only [rstep, RMachine.call, RMachine.onRc, RMachine.takeTree, h1, h2]

end shared
end Trees
