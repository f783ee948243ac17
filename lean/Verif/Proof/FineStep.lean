import Verif.Proof.Fine
/-
Whole calls and whole programs of Model/Fine, run without interruption, are those of Model/Alloc.
-/
namespace Trees
namespace Fine
set_option linter.unusedSimpArgs false
set_option linter.unusedVariables false
variable {α β γ : Type} {A : Alloc}

macro "erk" : tactic => `(tactic| (rename_i he; cases he <;> first | exact .inl rfl | exact .inr rfl))

/-- A single access fails only by touching memory that is not there, or by an allocator that breaks its contract. -/
theorem Acc.err_kind {a : Acc α} {h h' : Heap α} {e : Err} (he : a.run A h = .err e h') : e = .ub ∨ e = .alloc := by
  cases a with
  | ptr f a => cases f <;> (cases l : h.live a <;> simp [Acc.run, Fld.get, Trees.getPrev, Trees.getNext, Trees.getHead, Trees.getTail, Trees.getUp, rd, l] at he <;> erk)
  | setPtr f a v => cases f <;> (cases l : h.live a <;> simp [Acc.run, Fld.set, Trees.setPrev, Trees.setNext, Trees.setHead, Trees.setTail, Trees.setUp, wr, l] at he <;> erk)
  | size a => cases l : h.live a <;> simp [Acc.run, Trees.getSize, rd, l] at he <;> erk
  | setSize a _ => cases l : h.live a <;> simp [Acc.run, Trees.setSize, wr, l] at he <;> erk
  | data a => cases l : h.live a <;> simp [Acc.run, Trees.getData, rd, l] at he <;> erk
  | setData a _ => cases l : h.live a <;> simp [Acc.run, Trees.setData, wr, l] at he <;> erk
  | vecNode v i =>
    simp only [Acc.run, Trees.vecNode] at he
    cases e1 : h.vec v with
    | none => simp only [e1] at he; erk
    | some nv => simp only [e1] at he; split at he <;> erk
  | getRef v =>
    simp only [Acc.run] at he
    cases e1 : h.vec v with
    | none => simp only [e1] at he; erk
    | some nv => simp only [e1] at he; erk
  | setRef v =>
    simp only [Acc.run] at he
    cases e1 : h.vec v with
    | none => simp only [e1] at he; erk
    | some nv => simp only [e1] at he; erk
  | freeVec v =>
    simp only [Acc.run] at he
    cases e1 : h.vec v with
    | none => simp only [e1] at he; erk
    | some nv => simp only [e1] at he; erk
  | bound => simp only [Acc.run] at he; erk
  | logDrop d => simp only [Acc.run, Trees.logDrop] at he; erk
  | make d => simp only [Acc.run, makeNodeA] at he; split at he <;> erk
  | newVec n => simp only [Acc.run, newVecA] at he; split at he <;> erk
  | rcDrop o =>
    simp only [Acc.run, Trees.rcDrop] at he
    split at he
    · split at he
      · erk
      · split at he <;> erk
    · erk

theorem run_catch_ok {p : Prog α β} {f : β → Prog α γ} {g : Err → Prog α γ} {h h' : Heap α} {b : β} (e : p.run A h = .ok b h') :
    (p.catch_ f g).run A h = (f b).run A h' := by
  induction p generalizing h with
  | ret b' => simp only [Prog.run, Res.ok.injEq] at e; obtain ⟨rfl, rfl⟩ := e; rfl
  | fail _ => simp [Prog.run] at e
  | acc a k ih =>
    simp only [Prog.run] at e
    simp only [Prog.catch_, Prog.run]
    cases e1 : a.run A h with
    | ok x h1 => rw [e1] at e; exact ih x e
    | err x h1 => rw [e1] at e; cases e

theorem run_catch_err {p : Prog α β} {f : β → Prog α γ} {g : Err → Prog α γ} {h h' : Heap α} {x : Err} (e : p.run A h = .err x h') :
    (p.catch_ f g).run A h = (g x).run A h' ∨ ((x = .ub ∨ x = .alloc) ∧ (p.catch_ f g).run A h = .err x h') := by
  induction p generalizing h with
  | ret b' => simp [Prog.run] at e
  | fail _ => simp only [Prog.run, Res.err.injEq] at e; obtain ⟨rfl, rfl⟩ := e; exact .inl rfl
  | acc a k ih =>
    simp only [Prog.run] at e
    simp only [Prog.catch_, Prog.run]
    cases e1 : a.run A h with
    | ok x h1 => rw [e1] at e; exact ih x e
    | err y h1 =>
      rw [e1] at e
      simp only [Res.bind, Res.err.injEq] at e
      obtain ⟨rfl, rfl⟩ := e
      exact .inr ⟨Acc.err_kind e1, rfl⟩

theorem run_catch_err' {p : Prog α β} {f : β → Prog α γ} {g : Err → Prog α γ} {h h' : Heap α} {x : Err} {P : Res (Heap α) γ → Prop}
    (e : p.run A h = .err x h') (h1 : P ((g x).run A h')) (h2 : x = .ub ∨ x = .alloc → P (.err x h')) : P ((p.catch_ f g).run A h) := by
  rcases run_catch_err (f := f) (g := g) e with e2 | ⟨hx, e2⟩
  · rw [e2]; exact h1
  · rw [e2]; exact h2 hx

/-- The outcome of a call in small steps, and in one step. -/
def SRel (h : Heap α) : Res (Heap α) (Outcome Vars α) → Option (Outcome (Machine α) α) → Prop
  | .ok (.ok m o) h', x => x = some (.ok ⟨h', m.env, m.fresh⟩ o)
  | .ok (.panic m) h', x => x = some (.panic ⟨h', m.env, m.fresh⟩)
  | .ok .rejected h', x => h' = h ∧ x = some .rejected
  | .ok .bad _, x => x = some .bad
  | .err .alloc _, x => x = none
  | .err .ub _, x => x = some .bad
  | .err _ _, _ => False

variable {v : Vars} {h : Heap α}

/-- The machine of a thread. -/
def Vars.at (v : Vars) (h : Heap α) : Machine α := ⟨h, v.env, v.fresh⟩

theorem SRel.run {env : Var → Option Handle} {p : Prog α β} {c : M α β} (hi : Imp A p c) {k : β → Prog α (Outcome Vars α)}
    {k' : β → Heap α → Option (Outcome (Machine α) α)} (hk : ∀ b h', c h = .ok b h' → SRel h ((k b).run A h') (k' b h')) :
    SRel h ((v.run env p k).run A h) ((v.at h).runA env c k') := by
  have e := hi h
  simp only [Machine.runA, Vars.at, Vars.run]
  cases e1 : c h with
  | ok b h' => rw [run_catch_ok (by rw [e, e1])]; exact hk b h' e1
  | err x h' =>
    refine run_catch_err' (P := fun r => SRel h r _) (e.trans e1) ?_ ?_
    · cases x <;> rfl
    · rintro (rfl | rfl) <;> rfl

theorem locate_same {a : Addr} {p : Path} {o : Option Addr} {h h' : Heap α} (e : Trees.locate a p h = .ok o h') : h' = h := by
  rw [← imp_locate (A := Alloc.fresh) a p h] at e
  rcases RO.same (A := Alloc.fresh) (ro_locate a p) h with ⟨x, e1⟩ | ⟨x, e1⟩
  · rw [e1] at e; simp at e; exact e.2.symm
  · rw [e1] at e; cases e

theorem SRel.onKids {x : Var} {p : Path} {k : Handle → Addr → Prog α (Outcome Vars α)}
    {k' : Handle → Addr → Option (Outcome (Machine α) α)} (hk : ∀ hd n, SRel h ((k hd n).run A h) (k' hd n)) :
    SRel h ((v.onKids x p k).run A h) ((v.at h).onKidsA x p k') := by
  simp only [Vars.onKids, Machine.onKidsA]
  show SRel h _ (match v.env x with | none => _ | some hd => _)
  cases v.env x with
  | none => exact ⟨rfl, rfl⟩
  | some hd =>
    dsimp only
    split
    · exact ⟨rfl, rfl⟩
    · refine SRel.run (imp_locate _ _) fun o h' e => ?_
      obtain rfl := locate_same e
      cases o with
      | none => rfl
      | some n => exact hk hd n

theorem SRel.onNode {x : Var} {l : Loc} {k : Addr → Prog α (Outcome Vars α)}
    {k' : Addr → Option (Outcome (Machine α) α)} (hk : ∀ n, SRel h ((k n).run A h) (k' n)) :
    SRel h ((v.onNode x l k).run A h) ((v.at h).onNodeA x l k') := by
  simp only [Vars.onNode, Machine.onNodeA]
  show SRel h _ (match v.env x with | none => _ | some hd => _)
  cases v.env x with
  | none => exact ⟨rfl, rfl⟩
  | some hd =>
    dsimp only
    split
    · exact ⟨rfl, rfl⟩
    · cases l with
      | root => cases hd with
        | tree r => exact hk r
        | forest r => exact ⟨rfl, rfl⟩
        | iter r => exact ⟨rfl, rfl⟩
      | child q i =>
        refine SRel.run (imp_locate _ _) fun o h' e => ?_
        obtain rfl := locate_same e
        cases o with
        | none => rfl
        | some n => exact hk n

theorem SRel.takeTree {x y : Var} {k : Addr → Prog α (Outcome Vars α)} {k' : Addr → Option (Outcome (Machine α) α)}
    (hk : ∀ n, SRel h ((k n).run A h) (k' n)) : SRel h ((v.takeTree x y k).run A h) ((v.at h).takeTreeA x y k') := by
  simp only [Vars.takeTree, Machine.takeTreeA]
  split
  · exact ⟨rfl, rfl⟩
  · show SRel h _ (match v.env y with | some (.tree t) => _ | _ => _)
    cases v.env y with
    | none => exact ⟨rfl, rfl⟩
    | some hd => cases hd with
      | tree t => exact hk t
      | forest t => exact ⟨rfl, rfl⟩
      | iter t => exact ⟨rfl, rfl⟩

theorem SRel.takeForest {x y : Var} {k : Addr → Prog α (Outcome Vars α)} {k' : Addr → Option (Outcome (Machine α) α)}
    (hk : ∀ n, SRel h ((k n).run A h) (k' n)) : SRel h ((v.takeForest x y k).run A h) ((v.at h).takeForestA x y k') := by
  simp only [Vars.takeForest, Machine.takeForestA]
  split
  · exact ⟨rfl, rfl⟩
  · show SRel h _ (match v.env y with | some (.forest t) => _ | _ => _)
    cases v.env y with
    | none => exact ⟨rfl, rfl⟩
    | some hd => cases hd with
      | forest t => exact hk t
      | tree t => exact ⟨rfl, rfl⟩
      | iter t => exact ⟨rfl, rfl⟩

theorem SRel.pop {o : Option Addr} {h' : Heap α} : SRel h ((v.retPop o).run A h') (some ((v.at h).retPop h' o)) := by
  cases o <;> rfl

macro "stp" : tactic => `(tactic| repeat' (first
  | exact SRel.pop | rfl | exact ⟨rfl, rfl⟩
  | refine SRel.takeTree fun _ => ?_ | refine SRel.takeForest fun _ => ?_ | refine SRel.onKids fun _ _ => ?_
  | refine SRel.onNode fun _ => ?_ | refine SRel.run (by imp) fun _ _ _ => ?_))

/-- One call in small steps, without interruption, is the call. -/
theorem step_run (v : Vars) (h : Heap α) (op : Op α) : SRel h ((step v op).run A h) (stepA A (v.at h) op) := by
  cases op with
  | abandon x =>
    simp only [step, stepA]
    show SRel h _ (match v.env x with | some (.tree r) => _ | _ => _)
    rcases v.env x with _ | ⟨r | r | r⟩ <;> stp
  | drop x =>
    simp only [step, stepA]
    show SRel h _ (match v.env x with | some (.iter r) => _ | some hd => _ | none => _)
    rcases v.env x with _ | ⟨r | r | r⟩ <;> stp
  | intoIter x =>
    simp only [step, stepA]
    show SRel h _ (match v.env x with | some (.tree r) => _ | some (.forest r) => _ | _ => _)
    rcases v.env x with _ | ⟨r | r | r⟩ <;> stp
  | iterNext x =>
    simp only [step, stepA]
    show SRel h _ (match v.env x with | some (.iter r) => _ | _ => _)
    rcases v.env x with _ | ⟨r | r | r⟩ <;> stp
  | iterLen x =>
    simp only [step, stepA]
    show SRel h _ (match v.env x with | some (.iter r) => _ | _ => _)
    rcases v.env x with _ | ⟨r | r | r⟩ <;> stp
  | rebuild x f =>
    simp only [step, stepA]
    show SRel h _ (match v.env x with | some (.tree r) => _ | some (.forest r) => _ | _ => _)
    rcases v.env x with _ | ⟨r | r | r⟩ <;> stp
  | intoBfs x k =>
    simp only [step, stepA]
    show SRel h _ (match v.env x with | some (.tree r) => _ | some (.forest r) => _ | _ => _)
    rcases v.env x with _ | ⟨r | r | r⟩ <;> stp
  | treeFromTuple t => simp only [step, stepA]; split <;> stp
  | forestFromTuple t => simp only [step, stepA]; split <;> stp
  | _ => simp only [step, stepA]; stp

end Fine
end Trees
