import Verif.Proof.ConcClone
/-
A thread that owns some values and has shared references to others never writes to the shared ones.
-/
namespace Trees
set_option linter.unusedSimpArgs false
set_option linter.unusedVariables false
variable {α β γ : Type}
namespace Fine
variable {A : Alloc} {S : Heap α}

/-- Calls that leave the variables as they are. -/
def Kept (v : Vars) : Prog α (Outcome Vars α) → Prop
  | .ret (.ok v' _) => v' = v
  | .ret (.panic v') => v' = v
  | .ret _ => True
  | .fail _ => True
  | .acc _ k => ∀ x, Kept v (k x)

theorem Kept.run {v : Vars} {p : Prog α β} {k : β → Prog α (Outcome Vars α)} (h2 : ∀ b, Kept v (k b)) : Kept v (v.run v.env p k) := by
  unfold Vars.run
  induction p with
  | ret b => exact h2 b
  | fail e => cases e <;> simp only [Prog.catch_, Kept]
  | acc a k' ih => exact fun x => ih x

theorem Kept.onKids {v : Vars} {x : Var} {p : Path} {k : Handle → Addr → Prog α (Outcome Vars α)} (hk : ∀ hd n, Kept v (k hd n)) : Kept v (v.onKids x p k) := by
  unfold Vars.onKids
  split
  · trivial
  · split
    · trivial
    · refine Kept.run fun o => ?_
      cases o with
      | none => rfl
      | some n => exact hk _ _

theorem Kept.onNode {v : Vars} {x : Var} {l : Loc} {k : Addr → Prog α (Outcome Vars α)} (hk : ∀ n, Kept v (k n)) : Kept v (v.onNode x l k) := by
  unfold Vars.onNode
  split
  · trivial
  · split
    · trivial
    · split
      · split
        · exact hk _
        · trivial
      · refine Kept.run fun o => ?_
        cases o with
        | none => rfl
        | some n => exact hk _

theorem kept_step (v : Vars) (op : Op α) (ho : op.reading = true) : Kept v (step v op) := by
  cases op <;> first | cases ho; done | skip
  case data x l => exact Kept.onNode fun n => Kept.run fun _ => rfl
  case degree x p => exact Kept.onKids fun _ n => Kept.run fun _ => rfl
  case nodeCount x p => exact Kept.onKids fun _ n => Kept.run fun _ => rfl
  case hasNoChild x p => exact Kept.onKids fun _ n => Kept.run fun _ => rfl
  case childData x p => exact Kept.onKids fun _ n => Kept.run fun _ => rfl
  case frontData x p => exact Kept.onKids fun _ n => Kept.run fun _ => rfl
  case backData x p => exact Kept.onKids fun _ n => Kept.run fun _ => rfl
  case bfs x l k => exact Kept.onNode fun n => Kept.run fun _ => rfl
  case bfsChildren x p k => exact Kept.onKids fun _ n => Kept.run fun _ => rfl
  case iterLen x =>
    simp only [step]
    split
    · exact Kept.run fun _ => rfl
    · trivial

theorem kept_run {v : Vars} {p : Prog α (Outcome Vars α)} (hk : Kept v p) (hr : RO p) {V V' : Heap α} {r : Outcome Vars α} (e : p.run A V = .ok r V') :
    V' = V ∧ (∀ v' o, r = .ok v' o → v' = v) ∧ ∀ v', r = .panic v' → v' = v := by
  induction p generalizing V with
  | ret r' =>
    cases e
    refine ⟨rfl, ?_, ?_⟩
    · rintro v' o rfl; exact hk
    · rintro v' rfl; exact hk
  | fail x => cases e
  | acc a k ih =>
    simp only [Prog.run] at e
    rcases Acc.reads_same (A := A) hr.1 V with ⟨x, e1⟩ | ⟨x, e1⟩
    · rw [e1] at e; exact ih x (hk x) (hr.2 x) e
    · rw [e1] at e; cases e

variable {mS : Machine α} {KS : Addr → List Addr} {sh : Var → Prop} {w : Var → Option Handle}

/-- What holds when a thread has finished: what it holds itself, what is shared. -/
def Fin' (S : Heap α) (A : Alloc) (sh : Var → Prop) (w : Var → Option Handle) (q : Vars × List (Outcome Unit α)) (V : Heap α) : Prop :=
  ∃ v0 Q mQ KQ, Over sh w q.1 v0 ∧ AMRel A (v0.at Q) mQ ∧ MInv mQ KQ ∧ St A S Q V

/-- A thread that only writes what it owns, and where it gets. -/
def NE (S : Heap α) (A : Alloc) (sh : Var → Prop) (w : Var → Option Handle) (p : Prog α (Vars × List (Outcome Unit α))) (V : Heap α) : Prop :=
  NW S A p V ∧ ∀ q V', p.run A V = .ok q V' → Fin' S A sh w q V'

theorem NE.bind {S : Heap α} {p : Prog α β} {f : β → Prog α (Vars × List (Outcome Unit α))} {V : Heap α} (h1 : NW S A p V)
    (h2 : ∀ b V', p.run A V = .ok b V' → NE S A sh w (f b) V') : NE S A sh w (p.bind f) V := by
  refine ⟨h1.bind fun b V' e => (h2 b V' e).1, fun q V' e => ?_⟩
  rw [run_bind] at e
  cases e1 : p.run A V with
  | err x H => rw [e1] at e; cases e
  | ok b V1 => rw [e1] at e; exact (h2 b V1 e1).2 q V' e

theorem nw_exec (rS : ARel A S mS.heap) (MS : MInv mS KS) (hw : ∀ x, sh x → w x = (mS.env x).map (Handle.ren A)) (ops : List (Op α)) :
    ∀ (v v0 : Vars) (Q V : Heap α) (mQ : Machine α) (KQ : Addr → List Addr), (∀ op ∈ ops, op.byRef = true ∨ ∀ x ∈ op.vars, ¬ sh x) → Over sh w v v0 →
      AMRel A (v0.at Q) mQ → MInv mQ KQ → St A S Q V → NE S A sh w (exec v ops) V := by
  induction ops with
  | nil =>
    intro v v0 Q V mQ KQ hp o r M st
    refine ⟨trivial, fun q V' e => ?_⟩
    cases e
    exact ⟨v0, Q, mQ, KQ, o, r, M, st⟩
  | cons op ops ih =>
    intro v v0 Q V mQ KQ hp o r M st
    have hp' : ∀ op ∈ ops, op.byRef = true ∨ ∀ x ∈ op.vars, ¬ sh x := fun o h => hp o (by simp [h])
    have tail : ∀ (v v0 : Vars) (Q V : Heap α) (mQ : Machine α) (KQ : Addr → List Addr) (x : Outcome Unit α), Over sh w v v0 →
        AMRel A (v0.at Q) mQ → MInv mQ KQ → St A S Q V → NE S A sh w ((exec v ops).bind fun q => .ret (q.1, x :: q.2)) V := by
      intro v v0 Q V mQ KQ x o r M st
      obtain ⟨i1, i2⟩ := ih v v0 Q V mQ KQ hp' o r M st
      refine NE.bind i1 fun b V' e => ⟨trivial, fun q V2 e2 => ?_⟩
      cases e2
      exact i2 b V' e
    by_cases hr : op.reading = true
    · refine NE.bind (NW.of_ro (ro_step v op hr) V) fun b V' e => ?_
      obtain ⟨rfl, h1, h2⟩ := kept_run (kept_step v op hr) (ro_step v op hr) e
      cases b with
      | ok v' x => rw [h1 v' x rfl]; exact tail v v0 Q V' mQ KQ _ o r M st
      | panic v' => rw [h2 v' rfl]; exact tail v v0 Q V' mQ KQ _ o r M st
      | rejected => exact tail v v0 Q V' mQ KQ _ o r M st
      | bad => exact tail v v0 Q V' mQ KQ _ o r M st
    · obtain ⟨g, hi, hf⟩ : ∃ g, Ins S A (OutRel sh w) (step v op) g ∧ Fit A v0 g := by
        by_cases hx : ∃ x ∈ op.vars, sh x
        · rcases hp op (by simp) with h | h
          · exact ins_copy rS MS o hw op h (by simpa using hr) hx
          · obtain ⟨x, h1, h2⟩ := hx; exact absurd h2 (h x h1)
        · exact ⟨_, ins_step o op fun x h1 h2 => hx ⟨x, h1, h2⟩, fit_step v0 op⟩
      obtain ⟨hg, hq⟩ := hf Q mQ KQ r M
      obtain ⟨h1, h2⟩ := hi.runs st hg
      refine NE.bind h1 fun b V' e => ?_
      obtain ⟨c, Q', e', hR, st'⟩ := h2 b V' e
      have hq := hq c Q' e'
      cases b <;> cases c <;> simp only [OutRel] at hR
      · obtain ⟨m1, K1, r1, M1⟩ := hq
        exact tail _ _ Q' V' m1 K1 _ hR.1 r1 M1 st'
      · obtain ⟨m1, K1, r1, M1⟩ := hq
        exact tail _ _ Q' V' m1 K1 _ hR r1 M1 st'
      · dsimp only at hq; subst hq; exact tail v v0 _ V' mQ KQ _ o r M st'
      · exact hq.elim

end Fine
end Trees
