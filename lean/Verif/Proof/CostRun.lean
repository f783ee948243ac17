import Verif.Proof.CostCalls
import Verif.Proof.FineExec
import Verif.Props.Alloc
/-
With memory that is never reused the access programs, run without interruption, are the model: the allocator does not fail and
the outcome is that of `step`.
-/
namespace Trees
namespace Fine
open RTree
set_option linter.unusedSimpArgs false
set_option linter.unusedVariables false
variable {α β γ δ κ σ ι : Type}

theorem upto_treeFromBfs {p : σ → Prog α (Option (α × Size) × σ)} {c : σ → M α (Option (α × Size) × σ)} {pd : σ → Prog α Unit}
    {cd : σ → M α Unit} (h1 : ∀ s, Upto (p s) (c s)) (h2 : ∀ s, Upto (pd s) (cd s)) (s : σ) :
    Upto (treeFromBfs p pd s) (Trees.treeFromBfs c cd s) := by
  unfold treeFromBfs Trees.treeFromBfs
  exact Upto.bind (h1 s) fun x => Upto.bind (imp_unwrap _).upto fun y => Upto.bind (upto_newVec _) fun v =>
    Upto.bind (imp_makePiledNode _ _ _ _ _).upto fun _ => Upto.bind (upto_fillLoop h1 _ _ _ _ _ _) fun s2 =>
    Upto.bind (imp_vecNode _ _).upto fun a => Upto.bind (imp_treeFromNode _).upto fun r => Upto.bind (h2 s2) fun _ => Upto.pure _

theorem upto_forestFromBfs {p : σ → Prog α (Option (α × Size) × σ)} {c : σ → M α (Option (α × Size) × σ)} {pd : σ → Prog α Unit}
    {cd : σ → M α Unit} (h1 : ∀ s, Upto (p s) (c s)) (h2 : ∀ s, Upto (pd s) (cd s)) (s : σ) (sz : Size) :
    Upto (forestFromBfs p pd s sz) (Trees.forestFromBfs c cd s sz) := by
  unfold forestFromBfs Trees.forestFromBfs
  exact Upto.bind (upto_newVec _) fun v =>
    Upto.bind (imp_vecMakeNode _ _ _ _ _).upto fun _ => Upto.bind (upto_fillLoop h1 _ _ _ _ _ _) fun s2 =>
    Upto.bind (imp_vecNode _ _).upto fun a => Upto.bind (h2 s2) fun _ => Upto.pure _

theorem upto_mapBfs (f : Nat → α → α) (a : Addr) : Upto (mapBfs f a : Prog α _) (Trees.mapBfs f a) :=
  upto_treeFromBfs (upto_mapNext f (upto_splittedNext supto_ref)) (fun s => upto_dropIters supto_ref s.1) _

theorem upto_mapBfsForest (f : Nat → α → α) (a : Addr) : Upto (mapBfsForest f a : Prog α _) (Trees.mapBfsForest f a) := by
  unfold mapBfsForest Trees.mapBfsForest
  exact Upto.bind (imp_bfsChildrenStart _).upto fun s => Upto.bind (imp_getSize _).upto fun sz =>
    upto_forestFromBfs (upto_mapNext f (upto_splittedNext supto_ref)) (fun s => upto_dropIters supto_ref s.1) _ _

theorem upto_rebuildTree (f : Nat → α → α) (a : Addr) : Upto (rebuildTree f a : Prog α _) (Trees.rebuildTree f a) := by
  unfold rebuildTree Trees.rebuildTree
  exact Upto.bind (upto_treeIntoIter _) fun s =>
    upto_treeFromBfs (upto_mapNext f (upto_splittedNext supto_own)) (fun s => upto_dropIters supto_own s.1) _

theorem upto_rebuildForest (f : Nat → α → α) (a : Addr) : Upto (rebuildForest f a : Prog α _) (Trees.rebuildForest f a) := by
  unfold rebuildForest Trees.rebuildForest
  exact Upto.bind (imp_getSize _).upto fun sz =>
    upto_forestFromBfs (upto_mapNext f (upto_splittedNext supto_own)) (fun s => upto_dropIters supto_own s.1) _ _

theorem upto_intoBfsDrive (k : Nat) (a : Addr) : Upto (intoBfsDrive k a : Prog α _) (Trees.intoBfsDrive k a) := by
  unfold intoBfsDrive Trees.intoBfsDrive
  exact Upto.bind (upto_driveVisits (upto_splittedNext supto_own) _ _) fun x => Upto.bind (upto_dropIters supto_own _) fun _ => Upto.pure _

theorem upto_intoBfsTreeRun (k : Nat) (a : Addr) : Upto (intoBfsTreeRun k a : Prog α _) (Trees.intoBfsTreeRun k a) := by
  unfold intoBfsTreeRun Trees.intoBfsTreeRun
  exact Upto.bind (imp_getSize _).upto fun sz => Upto.bind (upto_treeIntoIter _) fun it => Upto.bind (upto_intoBfsDrive _ _) fun _ => Upto.pure _

theorem upto_intoBfsForestRun (k : Nat) (a : Addr) : Upto (intoBfsForestRun k a : Prog α _) (Trees.intoBfsForestRun k a) := by
  unfold intoBfsForestRun Trees.intoBfsForestRun
  exact Upto.bind (imp_getSize _).upto fun sz => Upto.bind (upto_intoBfsDrive _ _) fun _ => Upto.pure _

theorem upto_treeFromTuple (t : Tup α) : Upto (treeFromTuple t : Prog α _) (Trees.treeFromTuple t) := by
  unfold treeFromTuple Trees.treeFromTuple
  exact Upto.bind (upto_newVec _) fun v => Upto.bind (imp_constructTree _ _).upto fun _ => Upto.bind (imp_vecNode _ _).upto fun _ => (imp_treeFromNode _).upto

theorem upto_forestFromTuple (t : List (Tup α)) : Upto (forestFromTuple t : Prog α _) (Trees.forestFromTuple t) := by
  unfold forestFromTuple Trees.forestFromTuple
  exact Upto.bind (upto_newVec _) fun v => Upto.bind (imp_constructForest _ _).upto fun _ => (imp_vecNode _ _).upto

/-- The outcome of a call in small steps, against the model (unless the allocator refuses). -/
def SRelF (h : Heap α) : Res (Heap α) (Outcome Vars α) → Outcome (Machine α) α → Prop
  | .ok (.ok m o) h', x => x = .ok ⟨h', m.env, m.fresh⟩ o
  | .ok (.panic m) h', x => x = .panic ⟨h', m.env, m.fresh⟩
  | .ok .rejected h', x => h' = h ∧ x = .rejected
  | .ok .bad _, x => x = .bad
  | .err .alloc _, _ => True
  | .err .ub _, x => x = .bad
  | .err _ _, _ => False

variable {v : Vars} {h : Heap α}

theorem SRelF.run {env : Var → Option Handle} {p : Prog α β} {c : M α β} (hi : Upto p c) {k : β → Prog α (Outcome Vars α)}
    {k' : β → Heap α → Outcome (Machine α) α} (hk : ∀ b h', c h = .ok b h' → SRelF h ((k b).run .fresh h') (k' b h')) :
    SRelF h ((v.run env p k).run .fresh h) ((v.at h).run env c k') := by
  simp only [Machine.run, Vars.at, Vars.run]
  rcases hi h with e | ⟨h', e⟩
  · cases e1 : c h with
    | ok b h' => rw [run_catch_ok (by rw [e, e1])]; exact hk b h' e1
    | err x h' =>
      refine run_catch_err' (P := fun r => SRelF h r _) (e.trans e1) ?_ ?_
      · cases x <;> first | rfl | trivial
      · rintro (rfl | rfl) <;> first | rfl | trivial
  · exact run_catch_err' (P := fun r => SRelF h r _) e trivial fun _ => trivial

theorem SRelF.onKids {x : Var} {p : Path} {k : Handle → Addr → Prog α (Outcome Vars α)}
    {k' : Handle → Addr → Outcome (Machine α) α} (hk : ∀ hd n, SRelF h ((k hd n).run .fresh h) (k' hd n)) :
    SRelF h ((v.onKids x p k).run .fresh h) ((v.at h).onKids x p k') := by
  simp only [Vars.onKids, Machine.onKids]
  show SRelF h _ (match v.env x with | none => _ | some hd => _)
  cases v.env x with
  | none => exact ⟨rfl, rfl⟩
  | some hd =>
    dsimp only
    split
    · exact ⟨rfl, rfl⟩
    · refine SRelF.run (imp_locate _ _).upto fun o h' e => ?_
      obtain rfl := locate_same e
      cases o with
      | none => rfl
      | some n => exact hk hd n

theorem SRelF.onNode {x : Var} {l : Loc} {k : Addr → Prog α (Outcome Vars α)}
    {k' : Addr → Outcome (Machine α) α} (hk : ∀ n, SRelF h ((k n).run .fresh h) (k' n)) :
    SRelF h ((v.onNode x l k).run .fresh h) ((v.at h).onNode x l k') := by
  simp only [Vars.onNode, Machine.onNode]
  show SRelF h _ (match v.env x with | none => _ | some hd => _)
  cases v.env x with
  | none => exact ⟨rfl, rfl⟩
  | some hd =>
    dsimp only
    split
    · exact ⟨rfl, rfl⟩
    · cases l with
      | root => cases hd with
        | tree r => exact hk r
        | forest r => exact ⟨rfl, rfl⟩
        | iter r => exact ⟨rfl, rfl⟩
      | child q i =>
        refine SRelF.run (imp_locate _ _).upto fun o h' e => ?_
        obtain rfl := locate_same e
        cases o with
        | none => rfl
        | some n => exact hk n

theorem SRelF.takeTree {x y : Var} {k : Addr → Prog α (Outcome Vars α)} {k' : Addr → Outcome (Machine α) α}
    (hk : ∀ n, SRelF h ((k n).run .fresh h) (k' n)) : SRelF h ((v.takeTree x y k).run .fresh h) ((v.at h).takeTree x y k') := by
  simp only [Vars.takeTree, Machine.takeTree]
  split
  · exact ⟨rfl, rfl⟩
  · show SRelF h _ (match v.env y with | some (.tree t) => _ | _ => _)
    cases v.env y with
    | none => exact ⟨rfl, rfl⟩
    | some hd => cases hd with
      | tree t => exact hk t
      | forest t => exact ⟨rfl, rfl⟩
      | iter t => exact ⟨rfl, rfl⟩

theorem SRelF.takeForest {x y : Var} {k : Addr → Prog α (Outcome Vars α)} {k' : Addr → Outcome (Machine α) α}
    (hk : ∀ n, SRelF h ((k n).run .fresh h) (k' n)) : SRelF h ((v.takeForest x y k).run .fresh h) ((v.at h).takeForest x y k') := by
  simp only [Vars.takeForest, Machine.takeForest]
  split
  · exact ⟨rfl, rfl⟩
  · show SRelF h _ (match v.env y with | some (.forest t) => _ | _ => _)
    cases v.env y with
    | none => exact ⟨rfl, rfl⟩
    | some hd => cases hd with
      | forest t => exact hk t
      | tree t => exact ⟨rfl, rfl⟩
      | iter t => exact ⟨rfl, rfl⟩

theorem SRelF.pop {o : Option Addr} {h' : Heap α} : SRelF h ((v.retPop o).run .fresh h') ((v.at h).retPop h' o) := by
  cases o <;> rfl

macro "stpf" : tactic => `(tactic| repeat' (first
  | exact SRelF.pop | rfl | exact ⟨rfl, rfl⟩
  | refine SRelF.takeTree fun _ => ?_ | refine SRelF.takeForest fun _ => ?_ | refine SRelF.onKids fun _ _ => ?_
  | refine SRelF.onNode fun _ => ?_
  | refine SRelF.run (Imp.upto (by imp)) fun _ _ _ => ?_))

/-- One call in small steps, without interruption, is the call of the model. -/
theorem step_runF (v : Vars) (h : Heap α) (op : Op α) : SRelF h ((step v op).run .fresh h) (Trees.step (v.at h) op) := by
  cases op with
  | treeNew d => simp only [step, Trees.step]; exact SRelF.run (upto_makeNode _) fun _ _ _ => rfl
  | forestNew => simp only [step, Trees.step]; exact SRelF.run (upto_makeNode _) fun _ _ _ => rfl
  | abandon x =>
    simp only [step, Trees.step]
    show SRelF h _ (match v.env x with | some (.tree r) => _ | _ => _)
    rcases v.env x with _ | ⟨r | r | r⟩
    · exact ⟨rfl, rfl⟩
    · exact SRelF.run (upto_abandon _) fun _ _ _ => rfl
    · exact ⟨rfl, rfl⟩
    · exact ⟨rfl, rfl⟩
  | drop x =>
    simp only [step, Trees.step]
    show SRelF h _ (match v.env x with | some (.iter r) => _ | some hd => _ | none => _)
    rcases v.env x with _ | ⟨r | r | r⟩ <;> stpf
  | intoIter x =>
    simp only [step, Trees.step]
    show SRelF h _ (match v.env x with | some (.tree r) => _ | some (.forest r) => _ | _ => _)
    rcases v.env x with _ | ⟨r | r | r⟩
    · exact ⟨rfl, rfl⟩
    · exact SRelF.run (upto_treeIntoIter _) fun _ _ _ => rfl
    · rfl
    · exact ⟨rfl, rfl⟩
  | iterNext x =>
    simp only [step, Trees.step]
    show SRelF h _ (match v.env x with | some (.iter r) => _ | _ => _)
    rcases v.env x with _ | ⟨r | r | r⟩ <;> stpf
  | iterLen x =>
    simp only [step, Trees.step]
    show SRelF h _ (match v.env x with | some (.iter r) => _ | _ => _)
    rcases v.env x with _ | ⟨r | r | r⟩ <;> stpf
  | mapBfs x l f =>
    simp only [step, Trees.step]
    exact SRelF.onNode fun n => SRelF.run (upto_mapBfs _ _) fun _ _ _ => rfl
  | mapBfsForest x l f =>
    simp only [step, Trees.step]
    exact SRelF.onKids fun _ n => SRelF.run (upto_mapBfsForest _ _) fun _ _ _ => rfl
  | rebuild x f =>
    simp only [step, Trees.step]
    show SRelF h _ (match v.env x with | some (.tree r) => _ | some (.forest r) => _ | _ => _)
    rcases v.env x with _ | ⟨r | r | r⟩
    · exact ⟨rfl, rfl⟩
    · exact SRelF.run (upto_rebuildTree _ _) fun _ _ _ => rfl
    · exact SRelF.run (upto_rebuildForest _ _) fun _ _ _ => rfl
    · exact ⟨rfl, rfl⟩
  | intoBfs x k =>
    simp only [step, Trees.step]
    show SRelF h _ (match v.env x with | some (.tree r) => _ | some (.forest r) => _ | _ => _)
    rcases v.env x with _ | ⟨r | r | r⟩
    · exact ⟨rfl, rfl⟩
    · exact SRelF.run (upto_intoBfsTreeRun _ _) fun _ _ _ => rfl
    · exact SRelF.run (upto_intoBfsForestRun _ _) fun _ _ _ => rfl
    · exact ⟨rfl, rfl⟩
  | treeFromTuple t =>
    simp only [step, Trees.step]; split
    · exact SRelF.run (upto_treeFromTuple _) fun _ _ _ => rfl
    · exact ⟨rfl, rfl⟩
  | forestFromTuple t =>
    simp only [step, Trees.step]; split
    · exact SRelF.run (upto_forestFromTuple _) fun _ _ _ => rfl
    · exact ⟨rfl, rfl⟩
  | _ => simp only [step, Trees.step]; stpf

/-- A state is its own copy when memory is never reused. -/
theorem amrel_self {m : Machine α} {K : Addr → List Addr} (M : MInv m K) : AMRel .fresh m m := by
  have hm : ∀ o : Option Addr, o = o.map Alloc.fresh.addr := fun o => by cases o <;> rfl
  refine ⟨⟨fun a h => h, fun x h => ⟨x, h, rfl⟩, fun a b _ _ h => h, fun a _ => hm _, fun a _ => hm _, fun a _ => hm _, fun a _ => hm _,
    fun a _ => hm _, fun _ _ => rfl, fun a _ => ?_, fun _ _ => rfl, fun _ _ => rfl, fun v nv h => h, fun w nw h => ⟨w, nw, h, rfl⟩,
    fun v w _ _ _ _ h => h, fun _ _ _ _ _ => rfl, fun _ _ _ _ _ h1 h2 => ⟨h1, h2⟩, fun v nv h => (M.st.vecB v nv h).1,
    M.st.liveB, fun v nv h => (M.st.vecB v nv h).2, rfl, rfl, rfl⟩, ?_, rfl⟩
  · show m.heap.data a = _
    cases m.heap.data a <;> rfl
  · funext x
    show m.env x = (m.env x).map _
    cases m.env x with
    | none => rfl
    | some hd => cases hd <;> rfl

/-- The run of a call is complete: neither the allocator nor an access fails. -/
theorem step_complete {m : Machine α} {K : Addr → List Addr} (M : MInv m K) (op : Op α) : ∃ q h', (step m.vars op).run .fresh m.heap = .ok q h' := by
  have hr := step_runF m.vars m.heap op
  have hs := stepA_sim (amrel_self M) op
  have ha := step_run (A := .fresh) m.vars m.heap op
  have hb := step_not_bad M op
  cases e : (step m.vars op).run .fresh m.heap with
  | ok q h' => exact ⟨q, h', rfl⟩
  | err x h' =>
    rw [e] at hr ha
    cases x with
    | alloc =>
      have ha' : stepA .fresh m op = none := ha
      rw [ha'] at hs
      cases e' : Trees.step m op with
      | bad => exact absurd e' hb
      | _ => rw [e'] at hs; exact absurd fresh_bump hs
    | ub => exact absurd hr hb
    | panic => exact hr.elim
    | fuel => exact hr.elim

end Fine
end Trees
