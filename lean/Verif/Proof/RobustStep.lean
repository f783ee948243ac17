import Verif.Proof.RobustOps
/-
Calls of the exclusive-ownership API in a larger heap, and with further variables around.
-/
namespace Trees
set_option linter.unusedSimpArgs false
set_option linter.unusedVariables false
variable {α β γ : Type}

/-! ### Larger heap -/

/-- Code that does not write. -/
def ReadOnly (c : M α β) : Prop := ∀ h, (c h).heap = h

theorem ReadOnly.pure (b : β) : ReadOnly (pure b : M α β) := fun _ => rfl
theorem ReadOnly.throw (e : Err) : ReadOnly (M.throw e : M α β) := fun _ => rfl
theorem ReadOnly.bind {c : M α β} {f : β → M α γ} (hc : ReadOnly c) (hf : ∀ b, ReadOnly (f b)) : ReadOnly (c >>= f) := by
  intro h
  have := hc h
  simp only [M.bind_apply]
  cases e : c h with
  | ok b s => rw [e] at this; simp only [Res.heap] at this; subst this; exact hf b s
  | err x s => rw [e] at this; exact this
theorem ReadOnly.rd {f : Heap α → Addr → β} {a : Addr} : ReadOnly (rd f a) := by
  intro h; unfold Trees.rd; split <;> rfl
theorem ro_iter (a : Addr) : ReadOnly (iter a : M α _) := by
  unfold iter degree getHead getSize
  refine ReadOnly.rd.bind fun _ => ?_
  split
  · exact (ReadOnly.rd.bind fun _ => .pure _).bind fun _ => .pure _
  · exact .pure _
theorem ro_next (it : RawIter) : ReadOnly (it.next : M α _) := by
  unfold RawIter.next uncountedNext getNext
  split
  · exact .pure _
  · refine ReadOnly.bind ?_ fun _ => .pure _
    split
    · exact ReadOnly.rd.bind fun _ => .pure _
    · exact .pure _
theorem ro_nth : ∀ (n : Nat) (it : RawIter), ReadOnly (it.nth n : M α _) := by
  intro n
  induction n with
  | zero => intro it; exact ro_next it
  | succ n ih =>
    intro it
    unfold RawIter.nth
    refine (ro_next it).bind fun _ => ?_
    split
    · exact ih _
    · exact .pure _
theorem ro_locate : ∀ (p : Path) (a : Addr), ReadOnly (locate a p : M α _) := by
  intro p
  induction p with
  | nil => intro a; exact .pure _
  | cons i p ih =>
    intro a
    unfold locate
    refine (ro_iter a).bind fun _ => (ro_nth _ _).bind fun _ => ?_
    split
    · exact ih _
    · exact .pure _

/-- The same outcome in the larger heap. -/
def ORel (ρ : Ctx α) (X : Heap α) : Outcome (Machine α) α → Outcome (Machine α) α → Prop
  | .ok m o, r => Mono X m.heap ∧ (ρ.Fin m.heap → ∃ H, r = .ok ⟨H, m.env, m.fresh⟩ o ∧ HRel ρ m.heap H)
  | .panic m, r => Mono X m.heap ∧ (ρ.Fin m.heap → ∃ H, r = .panic ⟨H, m.env, m.fresh⟩ ∧ HRel ρ m.heap H)
  | .rejected, r => r = .rejected
  | .bad, _ => True

section
variable {ρ : Ctx α} {X H : Heap α} {env : Var → Option Handle} {fr : Nat}

/-- The code produces the new heap. -/
theorem ORel.run_ret (A : HRel ρ X H) {c : M α β} (hc : Robust c) {env' : Var → Option Handle}
    {g : β → (Var → Option Handle) × Nat × Out α} :
    ORel ρ X ((⟨X, env, fr⟩ : Machine α).run env' c fun b h => .ok ⟨h, (g b).1, (g b).2.1⟩ (g b).2.2)
      ((⟨H, env, fr⟩ : Machine α).run env' c fun b h => .ok ⟨h, (g b).1, (g b).2.1⟩ (g b).2.2) := by
  obtain ⟨m1, r1⟩ := hc ρ X H A
  simp only [Machine.run]
  cases e : c X with
  | ok b X' =>
    rw [e] at m1 r1
    refine ⟨m1, fun hF => ?_⟩
    obtain ⟨H', e1, e2⟩ := r1 hF
    exact ⟨H', by rw [e1], e2⟩
  | err x X' =>
    rw [e] at m1 r1
    cases x with
    | panic =>
      refine ⟨m1, fun hF => ?_⟩
      obtain ⟨H', e1, e2⟩ := r1 hF
      exact ⟨H', by rw [e1], e2⟩
    | ub => trivial
    | fuel => trivial
    | alloc => trivial

/-- The code only looks. -/
theorem ORel.run_ro (A : HRel ρ X H) (hF : ρ.Fin X) {c : M α β} (hc : Robust c) (hr : ReadOnly c) {env' : Var → Option Handle}
    {k k' : β → Outcome (Machine α) α} (hk : ∀ b, ORel ρ X (k b) (k' b)) :
    ORel ρ X ((⟨X, env, fr⟩ : Machine α).run env' c fun b _ => k b) ((⟨H, env, fr⟩ : Machine α).run env' c fun b _ => k' b) := by
  obtain ⟨m1, r1⟩ := hc ρ X H A
  have hx := hr X
  simp only [Machine.run]
  cases e : c X with
  | ok b X' =>
    rw [e] at m1 r1 hx
    simp only [Res.heap] at hx
    subst hx
    obtain ⟨H', e1, e2⟩ := r1 hF
    simp only [e1]
    exact hk b
  | err x X' =>
    rw [e] at m1 r1
    cases x with
    | panic =>
      refine ⟨m1, fun hF => ?_⟩
      obtain ⟨H', e1, e2⟩ := r1 hF
      exact ⟨H', by rw [e1], e2⟩
    | ub => trivial
    | fuel => trivial
    | alloc => trivial

theorem ORel.stay (A : HRel ρ X H) (o : Out α) : ORel ρ X (.ok ⟨X, env, fr⟩ o) (.ok ⟨H, env, fr⟩ o) :=
  ⟨.refl X, fun _ => ⟨H, rfl, A⟩⟩

theorem ORel.onKids (A : HRel ρ X H) (hF : ρ.Fin X) {x : Var} {p : Path} {k k' : Handle → Addr → Outcome (Machine α) α}
    (hk : ∀ hd n, ORel ρ X (k hd n) (k' hd n)) :
    ORel ρ X ((⟨X, env, fr⟩ : Machine α).onKids x p k) ((⟨H, env, fr⟩ : Machine α).onKids x p k') := by
  simp only [Machine.onKids]
  cases hx : env x with
  | none => rfl
  | some hd =>
    simp only
    split
    · rfl
    · refine ORel.run_ro A hF (rob_locate _ _) (ro_locate _ _) fun b => ?_
      cases b with
      | none => exact .stay A _
      | some n => exact hk hd n

theorem ORel.onNode (A : HRel ρ X H) (hF : ρ.Fin X) {x : Var} {l : Loc} {k k' : Addr → Outcome (Machine α) α}
    (hk : ∀ n, ORel ρ X (k n) (k' n)) :
    ORel ρ X ((⟨X, env, fr⟩ : Machine α).onNode x l k) ((⟨H, env, fr⟩ : Machine α).onNode x l k') := by
  simp only [Machine.onNode]
  cases hx : env x with
  | none => rfl
  | some hd =>
    simp only
    split
    · rfl
    · cases l with
      | root => cases hd with
        | tree r => exact hk r
        | forest r => rfl
        | iter r => rfl
      | child q i =>
        refine ORel.run_ro A hF (rob_locate _ _) (ro_locate _ _) fun b => ?_
        cases b with
        | none => exact .stay A _
        | some n => exact hk n

theorem ORel.takeTree {x y : Var} {k k' : Addr → Outcome (Machine α) α} (hk : ∀ n, ORel ρ X (k n) (k' n)) :
    ORel ρ X ((⟨X, env, fr⟩ : Machine α).takeTree x y k) ((⟨H, env, fr⟩ : Machine α).takeTree x y k') := by
  simp only [Machine.takeTree]
  split
  · rfl
  · split
    · exact hk _
    · rfl

theorem ORel.takeForest {x y : Var} {k k' : Addr → Outcome (Machine α) α} (hk : ∀ n, ORel ρ X (k n) (k' n)) :
    ORel ρ X ((⟨X, env, fr⟩ : Machine α).takeForest x y k) ((⟨H, env, fr⟩ : Machine α).takeForest x y k') := by
  simp only [Machine.takeForest]
  split
  · rfl
  · split
    · exact hk _
    · rfl

theorem rob_popOut {c : M α (Option Addr)} (A : HRel ρ X H) (hc : Robust c) {env' : Var → Option Handle} :
    ORel ρ X ((⟨X, env, fr⟩ : Machine α).run env' c fun o h => (⟨X, env, fr⟩ : Machine α).retPop h o)
      ((⟨H, env, fr⟩ : Machine α).run env' c fun o h => (⟨H, env, fr⟩ : Machine α).retPop h o) := by
  have := ORel.run_ret (env := env) (fr := fr) (env' := env') A hc (g := fun o => match o with
    | none => (env, fr, .none)
    | some c => (upd env fr (some (.tree c)), fr + 1, .var fr))
  have e : ∀ Y : Heap α, (fun (o : Option Addr) h => (⟨Y, env, fr⟩ : Machine α).retPop h o) = fun b h =>
      Outcome.ok ⟨h, ((fun o : Option Addr => match o with
    | none => (env, fr, Out.none)
    | some c => (upd env fr (some (.tree c)), fr + 1, Out.var fr)) b : (Var → Option Handle) × Nat × Out α).1,
      ((fun o : Option Addr => match o with
    | none => (env, fr, Out.none)
    | some c => (upd env fr (some (.tree c)), fr + 1, Out.var fr)) b : (Var → Option Handle) × Nat × Out α).2.1⟩
      ((fun o : Option Addr => match o with
    | none => (env, fr, Out.none)
    | some c => (upd env fr (some (.tree c)), fr + 1, Out.var fr)) b : (Var → Option Handle) × Nat × Out α).2.2 := by
    intro Y; funext o h; cases o <;> rfl
  rw [e X, e H]
  exact this

theorem rob_frontData (n : Addr) : Robust (do match (← front n) with
        | some c => do return some (← dataRef c)
        | none => return none : M α (Option α)) := by rob
theorem rob_backData (n : Addr) : Robust (do match (← back n) with
        | some c => do return some (← dataRef c)
        | none => return none : M α (Option α)) := by rob
theorem rob_childData (n : Addr) : Robust (do readMany dataRef (← children n) : M α (List α)) :=
  (rob_children n).bind fun _ => rob_readMany rob_dataRef _

/-- Every call behaves in the same way in a larger heap. -/
theorem step_rob (A : HRel ρ X H) (hF : ρ.Fin X) (op : Op α) :
    ORel ρ X (step ⟨X, env, fr⟩ op) (step ⟨H, env, fr⟩ op) := by
  cases op with
  | treeNew d =>
    simp only [step, Machine.ret, Machine.retVar, Machine.setEnv]
    exact ORel.run_ret A (rob_treeNew d) (g := fun a => (upd env fr (some (.tree a)), fr + 1, .var fr))
  | forestNew =>
    simp only [step, Machine.ret, Machine.retVar, Machine.setEnv]
    exact ORel.run_ret A rob_forestNew (g := fun a => (upd env fr (some (.forest a)), fr + 1, .var fr))
  | pushFront x p y =>
    simp only [step, Machine.ret, Machine.retVar, Machine.setEnv]
    exact ORel.takeTree fun t => ORel.onKids A hF fun _ n =>
      ORel.run_ret A (rob_pushFront n t) (g := fun _ => (upd env y none, fr, .unit))
  | pushBack x p y =>
    simp only [step, Machine.ret, Machine.retVar, Machine.setEnv]
    exact ORel.takeTree fun t => ORel.onKids A hF fun _ n =>
      ORel.run_ret A (rob_pushBack n t) (g := fun _ => (upd env y none, fr, .unit))
  | popFront x p =>
    simp only [step, Machine.ret, Machine.retVar, Machine.setEnv]
    exact ORel.onKids A hF fun _ n => rob_popOut A (rob_popFront n)
  | popBack x p =>
    simp only [step, Machine.ret, Machine.retVar, Machine.setEnv]
    exact ORel.onKids A hF fun _ n => rob_popOut A (rob_popBack n)
  | prepend x p y =>
    simp only [step, Machine.ret, Machine.retVar, Machine.setEnv]
    exact ORel.takeForest fun t => ORel.onKids A hF fun _ n =>
      ORel.run_ret A (rob_prepend n t) (g := fun _ => (upd env y none, fr, .unit))
  | append x p y =>
    simp only [step, Machine.ret, Machine.retVar, Machine.setEnv]
    exact ORel.takeForest fun t => ORel.onKids A hF fun _ n =>
      ORel.run_ret A (rob_append n t) (g := fun _ => (upd env y none, fr, .unit))
  | insertPrevSib x l y =>
    simp only [step, Machine.ret, Machine.retVar, Machine.setEnv]
    exact ORel.takeTree fun t => ORel.onNode A hF fun n =>
      ORel.run_ret A (rob_insertPrevSib n t) (g := fun _ => (upd env y none, fr, .unit))
  | insertNextSib x l y =>
    simp only [step, Machine.ret, Machine.retVar, Machine.setEnv]
    exact ORel.takeTree fun t => ORel.onNode A hF fun n =>
      ORel.run_ret A (rob_insertNextSib n t) (g := fun _ => (upd env y none, fr, .unit))
  | detach x l =>
    simp only [step, Machine.ret, Machine.retVar, Machine.setEnv]
    exact ORel.onNode A hF fun n =>
      ORel.run_ret A (rob_detach n) (g := fun c => (upd env fr (some (.tree c)), fr + 1, .var fr))
  | abandon x =>
    simp only [step, Machine.ret, Machine.retVar, Machine.setEnv]
    split
    · exact ORel.run_ret A (rob_abandon _) (g := fun q => (upd (upd env x (some (.tree q.1))) fr (some (.forest q.2)), fr + 1, .var fr))
    · rfl
  | setData x l d =>
    simp only [step, Machine.ret, Machine.retVar, Machine.setEnv]
    exact ORel.onNode A hF fun n =>
      ORel.run_ret A (rob_dataMutSet n d) (g := fun _ => (env, fr, .unit))
  | drop x =>
    simp only [step, Machine.ret, Machine.retVar, Machine.setEnv]
    split
    · exact ORel.run_ret A (rob_intoIterDrop _) (g := fun _ => (upd env x none, fr, .unit))
    · exact ORel.run_ret A (rob_dropRoot _) (g := fun _ => (upd env x none, fr, .unit))
    · rfl
  | intoIter x =>
    simp only [step, Machine.ret, Machine.retVar, Machine.setEnv]
    split
    · exact ORel.run_ret A (rob_treeIntoIter _) (g := fun f => (upd (upd env x none) fr (some (.iter f)), fr + 1, .var fr))
    · exact ⟨.refl X, fun _ => ⟨H, rfl, A⟩⟩
    · rfl
  | iterNext x =>
    simp only [step, Machine.ret, Machine.retVar, Machine.setEnv]
    split
    · exact rob_popOut A (rob_popFront _)
    · rfl
  | iterLen x =>
    simp only [step, Machine.ret, Machine.retVar, Machine.setEnv]
    split
    · exact ORel.run_ret A (rob_degree _) (g := fun n => (env, fr, .nat n))
    · rfl
  | data x l =>
    simp only [step, Machine.ret, Machine.retVar, Machine.setEnv]
    exact ORel.onNode A hF fun n => ORel.run_ret A (rob_dataRef n) (g := fun d => (env, fr, .item (some d)))
  | degree x p =>
    simp only [step, Machine.ret, Machine.retVar, Machine.setEnv]
    exact ORel.onKids A hF fun _ n => ORel.run_ret A (rob_degree n) (g := fun d => (env, fr, .nat d))
  | nodeCount x p =>
    simp only [step, Machine.ret, Machine.retVar, Machine.setEnv]
    exact ORel.onKids A hF fun _ n => ORel.run_ret A (rob_nodeCount n) (g := fun d => (env, fr, .nat d))
  | hasNoChild x p =>
    simp only [step, Machine.ret, Machine.retVar, Machine.setEnv]
    exact ORel.onKids A hF fun _ n => ORel.run_ret A (rob_hasNoChild n) (g := fun d => (env, fr, .bool d))
  | childData x p =>
    simp only [step, Machine.ret, Machine.retVar, Machine.setEnv]
    exact ORel.onKids A hF fun _ n => ORel.run_ret A (rob_childData n) (g := fun d => (env, fr, .items d))
  | frontData x p =>
    simp only [step, Machine.ret, Machine.retVar, Machine.setEnv]
    exact ORel.onKids A hF fun _ n => ORel.run_ret A (rob_frontData n) (g := fun d => (env, fr, .item d))
  | backData x p =>
    simp only [step, Machine.ret, Machine.retVar, Machine.setEnv]
    exact ORel.onKids A hF fun _ n => ORel.run_ret A (rob_backData n) (g := fun d => (env, fr, .item d))
  | mapBfs x l f =>
    simp only [step, Machine.ret, Machine.retVar, Machine.setEnv]
    exact ORel.onNode A hF fun n =>
      ORel.run_ret A (rob_mapBfs f n) (g := fun a => (upd env fr (some (.tree a)), fr + 1, .var fr))
  | mapBfsForest x p f =>
    simp only [step, Machine.ret, Machine.retVar, Machine.setEnv]
    exact ORel.onKids A hF fun _ n =>
      ORel.run_ret A (rob_mapBfsForest f n) (g := fun a => (upd env fr (some (.forest a)), fr + 1, .var fr))
  | rebuild x f =>
    simp only [step, Machine.ret, Machine.retVar, Machine.setEnv]
    split
    · exact ORel.run_ret A (rob_rebuildTree f _) (g := fun a => (upd (upd env x none) fr (some (.tree a)), fr + 1, .var fr))
    · exact ORel.run_ret A (rob_rebuildForest f _) (g := fun a => (upd (upd env x none) fr (some (.forest a)), fr + 1, .var fr))
    · rfl
  | bfs x l k =>
    simp only [step, Machine.ret, Machine.retVar, Machine.setEnv]
    exact ORel.onNode A hF fun n => ORel.run_ret A (rob_bfsRun k n) (g := fun q => (env, fr, outVisits q))
  | bfsChildren x p k =>
    simp only [step, Machine.ret, Machine.retVar, Machine.setEnv]
    exact ORel.onKids A hF fun _ n =>
      ORel.run_ret A (rob_bfsChildrenRun k n) (g := fun q => (env, fr, outVisits q))
  | intoBfs x k =>
    simp only [step, Machine.ret, Machine.retVar, Machine.setEnv]
    split
    · exact ORel.run_ret A (rob_intoBfsTreeRun k _) (g := fun q => (upd env x none, fr, outVisits q))
    · exact ORel.run_ret A (rob_intoBfsForestRun k _) (g := fun q => (upd env x none, fr, outVisits q))
    · rfl
  | bfsMut x l k f =>
    simp only [step, Machine.ret, Machine.retVar, Machine.setEnv]
    exact ORel.onNode A hF fun n =>
      ORel.run_ret A (rob_bfsMutRun f k n) (g := fun q => (env, fr, outVisits q))
  | bfsChildrenMut x p k f =>
    simp only [step, Machine.ret, Machine.retVar, Machine.setEnv]
    exact ORel.onKids A hF fun _ n =>
      ORel.run_ret A (rob_bfsChildrenMutRun f k n) (g := fun q => (env, fr, outVisits q))
  | treeFromTuple t =>
    simp only [step, Machine.ret, Machine.retVar, Machine.setEnv]
    split
    · exact ORel.run_ret A (rob_treeFromTuple t) (g := fun a => (upd env fr (some (.tree a)), fr + 1, .var fr))
    · rfl
  | forestFromTuple t =>
    simp only [step, Machine.ret, Machine.retVar, Machine.setEnv]
    split
    · exact ORel.run_ret A (rob_forestFromTuple t) (g := fun a => (upd env fr (some (.forest a)), fr + 1, .var fr))
    · rfl
end

/-! ### Further variables -/

/-- `env` with the variables of `g` added. -/
def overlay (g env : Var → Option Handle) : Var → Option Handle := fun x => (env x).or (g x)

/-- The same outcome with further variables. -/
def ERel (g : Var → Option Handle) : Outcome (Machine α) α → Outcome (Machine α) α → Prop
  | .ok m o, r => r = .ok ⟨m.heap, overlay g m.env, m.fresh⟩ o ∧ ∀ x h, g x = some h → m.env x = none
  | .panic m, r => r = .panic ⟨m.heap, overlay g m.env, m.fresh⟩ ∧ ∀ x h, g x = some h → m.env x = none
  | _, _ => True

section
variable {X : Heap α} {g env : Var → Option Handle} {fr : Nat}

theorem overlay_upd_some {x : Var} {h : Handle} : overlay g (upd env x (some h)) = upd (overlay g env) x (some h) := by
  funext z; simp only [overlay, upd_apply]; split <;> simp

theorem overlay_upd_none {x : Var} (hx : g x = none) : overlay g (upd env x none) = upd (overlay g env) x none := by
  funext z; simp only [overlay, upd_apply]; split
  · rename_i e; subst e; simp [hx]
  · rfl

theorem overlay_some {x : Var} {h : Handle} (hx : env x = some h) : overlay g env x = some h := by simp [overlay, hx]

/-- Environments that a call may leave behind. -/
structure EOK (g env env' env'' : Var → Option Handle) : Prop where
  eq : env'' = overlay g env'
  none : ∀ x h, g x = some h → env' x = none

theorem ERel.run {c : M α β} {env1 env2 : Var → Option Handle} (h1 : EOK g env env1 env2)
    {k k' : β → Heap α → Outcome (Machine α) α} (hk : ∀ b X', ERel g (k b X') (k' b X')) :
    ERel g ((⟨X, env, fr⟩ : Machine α).run env1 c k) ((⟨X, overlay g env, fr⟩ : Machine α).run env2 c k') := by
  simp only [Machine.run]
  cases e : c X with
  | ok b X' => exact hk b X'
  | err x X' =>
    cases x with
    | panic => exact ⟨by rw [h1.eq], h1.none⟩
    | ub => trivial
    | fuel => trivial
    | alloc => trivial

theorem ERel.ok {X' : Heap α} {env1 env2 : Var → Option Handle} (h1 : EOK g env env1 env2) {fr' : Nat} {o : Out α} :
    ERel g (.ok ⟨X', env1, fr'⟩ o) (.ok ⟨X', env2, fr'⟩ o) := ⟨by rw [h1.eq], h1.none⟩

set_option linter.unusedSectionVars false
variable (hg : ∀ x h, g x = some h → env x = none)
include hg

theorem eok_refl : EOK g env env (overlay g env) := ⟨rfl, hg⟩

theorem eok_bind (hf : ∀ x h, g x = some h → x < fr) {env1 env2 : Var → Option Handle} (h1 : EOK g env env1 env2) {hd : Handle} :
    EOK g env (upd env1 fr (some hd)) (upd env2 fr (some hd)) := by
  refine ⟨?_, ?_⟩
  · rw [overlay_upd_some, h1.eq]
  · intro x h hx
    have : x ≠ fr := Nat.ne_of_lt (hf x h hx)
    simp only [upd_apply, this, if_false]
    exact h1.none x h hx

theorem eok_take {y : Var} {t : Handle} (hy : env y = some t) : EOK g env (upd env y none) (upd (overlay g env) y none) := by
  have : g y = none := by
    cases h : g y with
    | none => rfl
    | some h' => rw [hg y h' h] at hy; simp at hy
  refine ⟨(overlay_upd_none this).symm, ?_⟩
  intro x h hx
  simp only [upd_apply]
  split
  · rfl
  · exact hg x h hx

theorem eok_set {y : Var} {t t' : Handle} (hy : env y = some t) : EOK g env (upd env y (some t')) (upd (overlay g env) y (some t')) := by
  refine ⟨overlay_upd_some.symm, ?_⟩
  intro x h hx
  have : x ≠ y := fun e => by subst e; rw [hg x h hx] at hy; simp at hy
  simp only [upd_apply, this, if_false]
  exact hg x h hx

theorem ERel.onKids {x : Var} {p : Path} {k k' : Handle → Addr → Outcome (Machine α) α}
    (hk : ∀ hd n, ERel g (k hd n) (k' hd n)) :
    ERel g ((⟨X, env, fr⟩ : Machine α).onKids x p k) ((⟨X, overlay g env, fr⟩ : Machine α).onKids x p k') := by
  simp only [Machine.onKids]
  cases hx : env x with
  | none => trivial
  | some hd =>
    simp only [overlay_some hx]
    split
    · trivial
    · refine ERel.run (eok_refl hg) fun b _ => ?_
      cases b with
      | none => exact .ok (eok_refl hg)
      | some n => exact hk hd n

theorem ERel.onNode {x : Var} {l : Loc} {k k' : Addr → Outcome (Machine α) α}
    (hk : ∀ n, ERel g (k n) (k' n)) :
    ERel g ((⟨X, env, fr⟩ : Machine α).onNode x l k) ((⟨X, overlay g env, fr⟩ : Machine α).onNode x l k') := by
  simp only [Machine.onNode]
  cases hx : env x with
  | none => trivial
  | some hd =>
    simp only [overlay_some hx]
    split
    · trivial
    · cases l with
      | root => cases hd with
        | tree r => exact hk r
        | forest r => trivial
        | iter r => trivial
      | child q i =>
        refine ERel.run (eok_refl hg) fun b _ => ?_
        cases b with
        | none => exact .ok (eok_refl hg)
        | some n => exact hk n

omit hg in
theorem ERel.takeTree {x y : Var} {k k' : Addr → Outcome (Machine α) α}
    (hk : ∀ n, env y = some (.tree n) → ERel g (k n) (k' n)) :
    ERel g ((⟨X, env, fr⟩ : Machine α).takeTree x y k) ((⟨X, overlay g env, fr⟩ : Machine α).takeTree x y k') := by
  simp only [Machine.takeTree]
  split
  · trivial
  · cases hy : env y with
    | none => trivial
    | some hd =>
      simp only [overlay_some hy]
      cases hd with
      | tree r => exact hk _ hy
      | forest r => trivial
      | iter r => trivial

omit hg in
theorem ERel.takeForest {x y : Var} {k k' : Addr → Outcome (Machine α) α}
    (hk : ∀ n, env y = some (.forest n) → ERel g (k n) (k' n)) :
    ERel g ((⟨X, env, fr⟩ : Machine α).takeForest x y k) ((⟨X, overlay g env, fr⟩ : Machine α).takeForest x y k') := by
  simp only [Machine.takeForest]
  split
  · trivial
  · cases hy : env y with
    | none => trivial
    | some hd =>
      simp only [overlay_some hy]
      cases hd with
      | tree r => trivial
      | forest r => exact hk _ hy
      | iter r => trivial

theorem ERel.pop (hf : ∀ x h, g x = some h → x < fr) {c : M α (Option Addr)} :
    ERel g ((⟨X, env, fr⟩ : Machine α).run env c fun o h => (⟨X, env, fr⟩ : Machine α).retPop h o)
      ((⟨X, overlay g env, fr⟩ : Machine α).run (overlay g env) c fun o h => (⟨X, overlay g env, fr⟩ : Machine α).retPop h o) := by
  refine ERel.run (eok_refl hg) fun o X' => ?_
  cases o with
  | none =>
    exact .ok (eok_refl hg)
  | some n =>
    exact .ok (eok_bind hg hf (eok_refl hg))

/-- A call that does not name the further variables leaves them alone and behaves as if they were not there. -/
theorem step_ext (hf : ∀ x h, g x = some h → x < fr) (op : Op α) :
    ERel g (step ⟨X, env, fr⟩ op) (step ⟨X, overlay g env, fr⟩ op) := by
  have e0 := eok_refl hg
  have eb : ∀ {hd}, EOK g env (upd env fr (some hd)) (upd (overlay g env) fr (some hd)) := fun {hd} => eok_bind hg hf e0
  cases op with
  | treeNew d =>
    simp only [step, Machine.ret, Machine.retVar, Machine.setEnv]
    exact ERel.run e0 fun _ _ => .ok eb
  | forestNew =>
    simp only [step, Machine.ret, Machine.retVar, Machine.setEnv]
    exact ERel.run e0 fun _ _ => .ok eb
  | pushFront x p y =>
    simp only [step, Machine.ret, Machine.retVar, Machine.setEnv]
    exact ERel.takeTree fun t ht => ERel.onKids hg fun _ n =>
      ERel.run (eok_take hg ht) fun _ _ => .ok (eok_take hg ht)
  | pushBack x p y =>
    simp only [step, Machine.ret, Machine.retVar, Machine.setEnv]
    exact ERel.takeTree fun t ht => ERel.onKids hg fun _ n =>
      ERel.run (eok_take hg ht) fun _ _ => .ok (eok_take hg ht)
  | popFront x p =>
    simp only [step, Machine.ret, Machine.retVar, Machine.setEnv]
    exact ERel.onKids hg fun _ n => ERel.pop hg hf
  | popBack x p =>
    simp only [step, Machine.ret, Machine.retVar, Machine.setEnv]
    exact ERel.onKids hg fun _ n => ERel.pop hg hf
  | prepend x p y =>
    simp only [step, Machine.ret, Machine.retVar, Machine.setEnv]
    exact ERel.takeForest fun t ht => ERel.onKids hg fun _ n =>
      ERel.run (eok_take hg ht) fun _ _ => .ok (eok_take hg ht)
  | append x p y =>
    simp only [step, Machine.ret, Machine.retVar, Machine.setEnv]
    exact ERel.takeForest fun t ht => ERel.onKids hg fun _ n =>
      ERel.run (eok_take hg ht) fun _ _ => .ok (eok_take hg ht)
  | insertPrevSib x l y =>
    simp only [step, Machine.ret, Machine.retVar, Machine.setEnv]
    exact ERel.takeTree fun t ht => ERel.onNode hg fun n =>
      ERel.run (eok_take hg ht) fun _ _ => .ok (eok_take hg ht)
  | insertNextSib x l y =>
    simp only [step, Machine.ret, Machine.retVar, Machine.setEnv]
    exact ERel.takeTree fun t ht => ERel.onNode hg fun n =>
      ERel.run (eok_take hg ht) fun _ _ => .ok (eok_take hg ht)
  | detach x l =>
    simp only [step, Machine.ret, Machine.retVar, Machine.setEnv]
    exact ERel.onNode hg fun n => ERel.run e0 fun _ _ => .ok eb
  | abandon x =>
    simp only [step, Machine.ret, Machine.retVar, Machine.setEnv]
    cases hx : env x with
    | none => trivial
    | some hd =>
      simp only [overlay_some hx]
      cases hd with
      | tree r => exact ERel.run e0 fun _ _ => .ok (eok_bind hg hf (eok_set hg hx))
      | forest r => trivial
      | iter r => trivial
  | setData x l d =>
    simp only [step, Machine.ret, Machine.retVar, Machine.setEnv]
    exact ERel.onNode hg fun n => ERel.run e0 fun _ _ => .ok e0
  | drop x =>
    simp only [step, Machine.ret, Machine.retVar, Machine.setEnv]
    cases hx : env x with
    | none => trivial
    | some hd =>
      simp only [overlay_some hx]
      cases hd with
      | tree r => exact ERel.run (eok_take hg hx) fun _ _ => .ok (eok_take hg hx)
      | forest r => exact ERel.run (eok_take hg hx) fun _ _ => .ok (eok_take hg hx)
      | iter r => exact ERel.run (eok_take hg hx) fun _ _ => .ok (eok_take hg hx)
  | intoIter x =>
    simp only [step, Machine.ret, Machine.retVar, Machine.setEnv]
    cases hx : env x with
    | none => trivial
    | some hd =>
      simp only [overlay_some hx]
      cases hd with
      | tree r => exact ERel.run (eok_take hg hx) fun _ _ => .ok (eok_bind hg hf (eok_take hg hx))
      | forest r => exact .ok (eok_bind hg hf (eok_take hg hx))
      | iter r => trivial
  | iterNext x =>
    simp only [step, Machine.ret, Machine.retVar, Machine.setEnv]
    cases hx : env x with
    | none => trivial
    | some hd =>
      simp only [overlay_some hx]
      cases hd with
      | tree r => trivial
      | forest r => trivial
      | iter r => exact ERel.pop hg hf
  | iterLen x =>
    simp only [step, Machine.ret, Machine.retVar, Machine.setEnv]
    cases hx : env x with
    | none => trivial
    | some hd =>
      simp only [overlay_some hx]
      cases hd with
      | tree r => trivial
      | forest r => trivial
      | iter r => exact ERel.run e0 fun _ _ => .ok e0
  | data x l =>
    simp only [step, Machine.ret, Machine.retVar, Machine.setEnv]
    exact ERel.onNode hg fun n => ERel.run e0 fun _ _ => .ok e0
  | degree x p =>
    simp only [step, Machine.ret, Machine.retVar, Machine.setEnv]
    exact ERel.onKids hg fun _ n => ERel.run e0 fun _ _ => .ok e0
  | nodeCount x p =>
    simp only [step, Machine.ret, Machine.retVar, Machine.setEnv]
    exact ERel.onKids hg fun _ n => ERel.run e0 fun _ _ => .ok e0
  | hasNoChild x p =>
    simp only [step, Machine.ret, Machine.retVar, Machine.setEnv]
    exact ERel.onKids hg fun _ n => ERel.run e0 fun _ _ => .ok e0
  | childData x p =>
    simp only [step, Machine.ret, Machine.retVar, Machine.setEnv]
    exact ERel.onKids hg fun _ n => ERel.run e0 fun _ _ => .ok e0
  | frontData x p =>
    simp only [step, Machine.ret, Machine.retVar, Machine.setEnv]
    exact ERel.onKids hg fun _ n => ERel.run e0 fun _ _ => .ok e0
  | backData x p =>
    simp only [step, Machine.ret, Machine.retVar, Machine.setEnv]
    exact ERel.onKids hg fun _ n => ERel.run e0 fun _ _ => .ok e0
  | mapBfs x l f =>
    simp only [step, Machine.ret, Machine.retVar, Machine.setEnv]
    exact ERel.onNode hg fun n => ERel.run e0 fun _ _ => .ok eb
  | mapBfsForest x p f =>
    simp only [step, Machine.ret, Machine.retVar, Machine.setEnv]
    exact ERel.onKids hg fun _ n => ERel.run e0 fun _ _ => .ok eb
  | rebuild x f =>
    simp only [step, Machine.ret, Machine.retVar, Machine.setEnv]
    cases hx : env x with
    | none => trivial
    | some hd =>
      simp only [overlay_some hx]
      cases hd with
      | tree r => exact ERel.run (eok_take hg hx) fun _ _ => .ok (eok_bind hg hf (eok_take hg hx))
      | forest r => exact ERel.run (eok_take hg hx) fun _ _ => .ok (eok_bind hg hf (eok_take hg hx))
      | iter r => trivial
  | bfs x l k =>
    simp only [step, Machine.ret, Machine.retVar, Machine.setEnv]
    exact ERel.onNode hg fun n => ERel.run e0 fun _ _ => .ok e0
  | bfsChildren x p k =>
    simp only [step, Machine.ret, Machine.retVar, Machine.setEnv]
    exact ERel.onKids hg fun _ n => ERel.run e0 fun _ _ => .ok e0
  | intoBfs x k =>
    simp only [step, Machine.ret, Machine.retVar, Machine.setEnv]
    cases hx : env x with
    | none => trivial
    | some hd =>
      simp only [overlay_some hx]
      cases hd with
      | tree r => exact ERel.run (eok_take hg hx) fun _ _ => .ok (eok_take hg hx)
      | forest r => exact ERel.run (eok_take hg hx) fun _ _ => .ok (eok_take hg hx)
      | iter r => trivial
  | bfsMut x l k f =>
    simp only [step, Machine.ret, Machine.retVar, Machine.setEnv]
    exact ERel.onNode hg fun n => ERel.run e0 fun _ _ => .ok e0
  | bfsChildrenMut x p k f =>
    simp only [step, Machine.ret, Machine.retVar, Machine.setEnv]
    exact ERel.onKids hg fun _ n => ERel.run e0 fun _ _ => .ok e0
  | treeFromTuple t =>
    simp only [step, Machine.ret, Machine.retVar, Machine.setEnv]
    split
    · exact ERel.run e0 fun _ _ => .ok eb
    · trivial
  | forestFromTuple t =>
    simp only [step, Machine.ret, Machine.retVar, Machine.setEnv]
    split
    · exact ERel.run e0 fun _ _ => .ok eb
    · trivial
end

end Trees
