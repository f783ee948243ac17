import Verif.Proof.AllocBfs
/-
Independence of the allocator for whole calls.
-/
namespace Trees
set_option linter.unusedSimpArgs false
set_option linter.unusedVariables false
variable {α β γ δ : Type} {A : Alloc}

/-- Rename the handles in the variables. -/
def renEnv (A : Alloc) (e : Var → Option Handle) : Var → Option Handle := fun x => (e x).map (Handle.ren A)

theorem renEnv_upd (e : Var → Option Handle) (x : Var) (v : Option Handle) :
    upd (renEnv A e) x (v.map (Handle.ren A)) = renEnv A (upd e x v) := by
  funext z; simp only [upd_apply, renEnv]; split <;> rfl

/-- Related machines. -/
structure AMRel (A : Alloc) (m m' : Machine α) : Prop where
  heap : ARel A m.heap m'.heap
  env : m.env = renEnv A m'.env
  fresh : m.fresh = m'.fresh

/-- Related outcomes. -/
def AORel (A : Alloc) : Option (Outcome (Machine α) α) → Outcome (Machine α) α → Prop
  | _, .bad => True
  | none, _ => ¬ A.Bump
  | some (.ok m o), .ok m' o' => AMRel A m m' ∧ o = o'
  | some (.panic m), .panic m' => AMRel A m m'
  | some .rejected, .rejected => True
  | _, _ => False

theorem AORel.bad (r : Option (Outcome (Machine α) α)) : AORel A r .bad := by
  cases r with
  | none => trivial
  | some r => cases r <;> trivial

section
variable {m m' : Machine α} (r : AMRel A m m')
include r

theorem AORel.run {f : δ → γ} {e e' : Var → Option Handle} (he : e = renEnv A e') {c : M α γ} {c' : M α δ} (hc : ASim A (¬ A.Bump) f c c')
    {k : γ → Heap α → Option (Outcome (Machine α) α)} {k' : δ → Heap α → Outcome (Machine α) α}
    (hk : ∀ b L H, ARel A L H → AORel A (k (f b) L) (k' b H)) : AORel A (m.runA e c k) (m'.run e' c' k') := by
  have h := hc _ _ r.heap
  simp only [Machine.runA, Machine.run]
  revert h
  generalize c m.heap = q
  generalize c' m'.heap = q'
  intro h
  match q, q', h with
  | .err .alloc _, .ok b' H, h =>
    dsimp only
    generalize k' b' H = q
    cases q <;> first | exact h | trivial
  | .err .alloc _, .err .panic _, h => exact h
  | _, .err .ub _, _ => exact AORel.bad _
  | _, .err .fuel _, _ => exact AORel.bad _
  | _, .err .alloc _, _ => exact AORel.bad _
  | .ok b L, .ok b' H, h => obtain ⟨rfl, h⟩ := h; exact hk b' L H h
  | .err .panic L, .err .panic H, h => exact ⟨h, he, r.fresh⟩
  | .err .ub _, .err .panic _, h => exact h.elim
  | .err .fuel _, .err .panic _, h => exact h.elim

theorem AORel.ok {e e' : Var → Option Handle} (he : e = renEnv A e') {L H : Heap α} (h : ARel A L H) (o : Out α) :
    AORel A (some (m.ret L e o)) (m'.ret H e' o) := ⟨⟨h, he, r.fresh⟩, rfl⟩

theorem AORel.var {e e' : Var → Option Handle} (he : e = renEnv A e') {L H : Heap α} (h : ARel A L H) (hd : Handle) :
    AORel A (some (m.retVar L e (hd.ren A))) (m'.retVar H e' hd) := by
  refine ⟨⟨h, ?_, ?_⟩, ?_⟩
  · simp only [he, r.fresh]; exact renEnv_upd e' _ (some hd)
  · simp only [r.fresh]
  · simp only [r.fresh]

theorem AORel.pop {L H : Heap α} (h : ARel A L H) (o : Option Addr) :
    AORel A (some (m.retPop L (o.map A.addr))) (m'.retPop H o) := by
  cases o with
  | none => exact .ok r r.env h _
  | some c => exact .var r r.env h (.tree c)

theorem AMRel.at (x : Var) : m.env x = (m'.env x).map (Handle.ren A) := by rw [r.env]; rfl

theorem AORel.onKids {x : Var} {p : Path} {k : Handle → Addr → Option (Outcome (Machine α) α)}
    {k' : Handle → Addr → Outcome (Machine α) α} (hk : ∀ hd n, AORel A (k (hd.ren A) (A.addr n)) (k' hd n)) :
    AORel A (m.onKidsA x p k) (m'.onKids x p k') := by
  simp only [Machine.onKidsA, Machine.onKids]
  rw [r.at x]
  cases m'.env x with
  | none => trivial
  | some hd =>
    simp only [Option.map_some, Handle.ren_isIter]
    split
    · trivial
    · rw [Handle.ren_addr]
      refine AORel.run r r.env (al_locate p hd.addr) fun b L H h => ?_
      cases b with
      | none => exact ⟨r, rfl⟩
      | some n => exact hk hd n

theorem AORel.onNode {x : Var} {l : Loc} {k : Addr → Option (Outcome (Machine α) α)}
    {k' : Addr → Outcome (Machine α) α} (hk : ∀ n, AORel A (k (A.addr n)) (k' n)) :
    AORel A (m.onNodeA x l k) (m'.onNode x l k') := by
  simp only [Machine.onNodeA, Machine.onNode]
  rw [r.at x]
  cases m'.env x with
  | none => trivial
  | some hd =>
    simp only [Option.map_some, Handle.ren_isIter]
    split
    · trivial
    · cases l with
      | root => cases hd with
        | tree r => exact hk r
        | forest r => trivial
        | iter r => trivial
      | child q i =>
        rw [Handle.ren_addr]
        refine AORel.run r r.env (al_locate _ hd.addr) fun b L H h => ?_
        cases b with
        | none => exact ⟨r, rfl⟩
        | some n => exact hk n

theorem AORel.takeTree {x y : Var} {k : Addr → Option (Outcome (Machine α) α)} {k' : Addr → Outcome (Machine α) α}
    (hk : ∀ n, AORel A (k (A.addr n)) (k' n)) : AORel A (m.takeTreeA x y k) (m'.takeTree x y k') := by
  simp only [Machine.takeTreeA, Machine.takeTree]
  rw [r.at y]
  split
  · trivial
  · cases m'.env y with
    | none => trivial
    | some hd => cases hd with
      | tree n => exact hk n
      | forest n => trivial
      | iter n => trivial

theorem AORel.takeForest {x y : Var} {k : Addr → Option (Outcome (Machine α) α)} {k' : Addr → Outcome (Machine α) α}
    (hk : ∀ n, AORel A (k (A.addr n)) (k' n)) : AORel A (m.takeForestA x y k) (m'.takeForest x y k') := by
  simp only [Machine.takeForestA, Machine.takeForest]
  rw [r.at y]
  split
  · trivial
  · cases m'.env y with
    | none => trivial
    | some hd => cases hd with
      | tree n => trivial
      | forest n => exact hk n
      | iter n => trivial

theorem AMRel.clear (x : Var) : m.setEnv x none = renEnv A (m'.setEnv x none) := by
  simp only [Machine.setEnv, r.env]; exact renEnv_upd m'.env x none

theorem AMRel.put (x : Var) (hd : Handle) : m.setEnv x (some (hd.ren A)) = renEnv A (m'.setEnv x (some hd)) := by
  simp only [Machine.setEnv, r.env]; exact renEnv_upd m'.env x (some hd)

/-- A call that consumes a tree at a node. -/
theorem AORel.runUnit {e e' : Var → Option Handle} (he : e = renEnv A e') {c c' : M α Unit} (hc : ASim A (¬ A.Bump) id c c') :
    AORel A (m.runA e c fun _ h => some (m.ret h e .unit)) (m'.run e' c' fun _ h => m'.ret h e' .unit) :=
  .run r he hc fun _ _ _ h => .ok r he h _

theorem stepA_sim (op : Op α) : AORel A (stepA A m op) (step m' op) := by
  have E := r.env
  cases op with
  | treeNew d => simp only [stepA, step]; exact .run r E (al_treeNew d) fun a L H h => .var r E h (.tree a)
  | forestNew => simp only [stepA, step]; exact .run r E al_forestNew fun a L H h => .var r E h (.forest a)
  | pushFront x p y => exact .takeTree r fun t => .onKids r fun _ n => .runUnit r (r.clear y) (al_pushFront n t)
  | pushBack x p y => exact .takeTree r fun t => .onKids r fun _ n => .runUnit r (r.clear y) (al_pushBack n t)
  | popFront x p => exact .onKids r fun _ n => .run r E (al_popFront n) fun o L H h => .pop r h o
  | popBack x p => exact .onKids r fun _ n => .run r E (al_popBack n) fun o L H h => .pop r h o
  | prepend x p y => exact .takeForest r fun t => .onKids r fun _ n => .runUnit r (r.clear y) (al_prepend n t)
  | append x p y => exact .takeForest r fun t => .onKids r fun _ n => .runUnit r (r.clear y) (al_append n t)
  | insertPrevSib x l y => exact .takeTree r fun t => .onNode r fun n => .runUnit r (r.clear y) (al_insertPrevSib n t)
  | insertNextSib x l y => exact .takeTree r fun t => .onNode r fun n => .runUnit r (r.clear y) (al_insertNextSib n t)
  | detach x l => exact .onNode r fun n => .run r E (al_detach n) fun c L H h => .var r E h (.tree c)
  | abandon x =>
    simp only [stepA, step]
    rw [r.at x]
    cases m'.env x with
    | none => trivial
    | some hd => cases hd with
      | tree a => exact .run r E (al_abandon a) fun q L H h => .var r (r.put x (.tree q.1)) h (.forest q.2)
      | forest n => trivial
      | iter n => trivial
  | setData x l d => exact .onNode r fun n => .runUnit r E (al_dataMutSet n d)
  | drop x =>
    simp only [stepA, step]
    rw [r.at x]
    cases m'.env x with
    | none => trivial
    | some hd => cases hd with
      | tree a => exact .runUnit r (r.clear x) (al_dropRoot a)
      | forest a => exact .runUnit r (r.clear x) (al_dropRoot a)
      | iter a => exact .runUnit r (r.clear x) (al_intoIterDrop a)
  | intoIter x =>
    simp only [stepA, step]
    rw [r.at x]
    cases m'.env x with
    | none => trivial
    | some hd => cases hd with
      | tree a => exact .run r (r.clear x) (al_treeIntoIter a) fun f L H h => .var r (r.clear x) h (.iter f)
      | forest a => exact .var r (r.clear x) r.heap (.iter a)
      | iter a => trivial
  | iterNext x =>
    simp only [stepA, step]
    rw [r.at x]
    cases m'.env x with
    | none => trivial
    | some hd => cases hd with
      | tree a => trivial
      | forest a => trivial
      | iter a => exact .run r E (al_popFront a) fun o L H h => .pop r h o
  | iterLen x =>
    simp only [stepA, step]
    rw [r.at x]
    cases m'.env x with
    | none => trivial
    | some hd => cases hd with
      | tree a => trivial
      | forest a => trivial
      | iter a => exact .run r E (al_degree a) fun o L H h => .ok r E h _
  | data x l => exact .onNode r fun n => .run r E (al_dataRef n) fun o L H h => .ok r E h _
  | degree x p => exact .onKids r fun _ n => .run r E (al_degree n) fun o L H h => .ok r E h _
  | nodeCount x p => exact .onKids r fun _ n => .run r E (al_nodeCount n) fun o L H h => .ok r E h _
  | hasNoChild x p => exact .onKids r fun _ n => .run r E (al_hasNoChild n) fun o L H h => .ok r E h _
  | childData x p =>
    exact .onKids r fun _ n => .run r E ((al_children n).bind fun cs => al_readMany al_dataRef cs) fun o L H h => .ok r E h _
  | frontData x p =>
    refine .onKids r fun _ n => .run r E (f := id) ?_ fun o L H h => .ok r E h _
    exact ASim.bindOpt (al_front n) (.pureId _) fun c => (al_dataRef c).bindId fun _ => .pureId _
  | backData x p =>
    refine .onKids r fun _ n => .run r E (f := id) ?_ fun o L H h => .ok r E h _
    exact ASim.bindOpt (al_back n) (.pureId _) fun c => (al_dataRef c).bindId fun _ => .pureId _
  | mapBfs x l f => exact .onNode r fun n => .run r E (al_mapBfs f n) fun a L H h => .var r E h (.tree a)
  | mapBfsForest x p f => exact .onKids r fun _ n => .run r E (al_mapBfsForest f n) fun a L H h => .var r E h (.forest a)
  | rebuild x f =>
    simp only [stepA, step]
    rw [r.at x]
    cases m'.env x with
    | none => trivial
    | some hd => cases hd with
      | tree a => exact .run r (r.clear x) (al_rebuildTree f a) fun b L H h => .var r (r.clear x) h (.tree b)
      | forest a => exact .run r (r.clear x) (al_rebuildForest f a) fun b L H h => .var r (r.clear x) h (.forest b)
      | iter a => trivial
  | bfs x l k => exact .onNode r fun n => .run r E (al_bfsRun k n) fun o L H h => .ok r E h _
  | bfsChildren x p k => exact .onKids r fun _ n => .run r E (al_bfsChildrenRun k n) fun o L H h => .ok r E h _
  | intoBfs x k =>
    simp only [stepA, step]
    rw [r.at x]
    cases m'.env x with
    | none => trivial
    | some hd => cases hd with
      | tree a => exact .run r (r.clear x) (al_intoBfsTreeRun k a) fun b L H h => .ok r (r.clear x) h _
      | forest a => exact .run r (r.clear x) (al_intoBfsForestRun k a) fun b L H h => .ok r (r.clear x) h _
      | iter a => trivial
  | bfsMut x l k f => exact .onNode r fun n => .run r E (al_bfsMutRun f k n) fun o L H h => .ok r E h _
  | bfsChildrenMut x p k f => exact .onKids r fun _ n => .run r E (al_bfsChildrenMutRun f k n) fun o L H h => .ok r E h _
  | treeFromTuple t =>
    simp only [stepA, step]
    split
    · exact .run r E (al_treeFromTuple t) fun a L H h => .var r E h (.tree a)
    · trivial
  | forestFromTuple ts =>
    simp only [stepA, step]
    split
    · exact .run r E (al_forestFromTuple ts) fun a L H h => .var r E h (.forest a)
    · trivial

end

end Trees
