import Verif.Proof.ConcEnd
/-
Threads that only read.
-/
namespace Trees
set_option linter.unusedSimpArgs false
set_option linter.unusedVariables false
variable {α β γ δ ι κ σ : Type}
namespace Fine
variable {n : Nat} {As : Fin n → Alloc}

structure SRO (S : Src α ι κ δ) : Prop where
  next : ∀ i, RO (S.next i)
  len : ∀ i, RO (S.len i)
  drop : ∀ i, RO (S.drop i)
  split : ∀ k, RO (S.split k)

theorem sro_refSrc : SRO (refSrc : Src α _ _ _) where
  next i := ro_iterNext i
  len i := RO.pure _
  drop i := RO.pure _
  split a := by
    unfold refSrc
    exact RO.bind (ro_dataRef a) fun _ => RO.bind (ro_iter a) fun _ => RO.bind (RO.access rfl) fun _ => RO.pure _

theorem ro_splittedNext {S : Src α ι κ δ} (hs : SRO S) (l : List ι) : RO (splittedNext S l) := by
  induction l with
  | nil => exact RO.pure _
  | cons it rest ih =>
    unfold splittedNext
    refine RO.bind (hs.next it) fun x => ?_
    obtain ⟨o, it'⟩ := x
    cases o with
    | none => exact RO.bind (hs.drop it') fun _ => ih
    | some k =>
      refine RO.bind (hs.split k) fun y => ?_
      obtain ⟨d, ch, desc⟩ := y
      exact RO.bind (hs.len ch) fun n => RO.pure _

theorem ro_driveVisits {p : σ → Prog α (Option (δ × Size) × σ)} (h1 : ∀ s, RO (p s)) (k : Nat) (s : σ) : RO (driveVisits p k s) := by
  induction k generalizing s with
  | zero => exact RO.pure _
  | succ k ih =>
    unfold driveVisits
    exact RO.bind (h1 s) fun x => RO.bind (ih x.2) fun y => RO.pure _

theorem ro_bfsRun (k : Nat) (a : Addr) : RO (bfsRun k a : Prog α _) := by
  unfold bfsRun
  exact RO.bind (RO.access rfl) fun _ => RO.bind (ro_driveVisits (ro_splittedNext sro_refSrc) _ _) fun _ => RO.pure _

theorem ro_bfsChildrenRun (k : Nat) (a : Addr) : RO (bfsChildrenRun k a : Prog α _) := by
  unfold bfsChildrenRun bfsChildrenStart
  exact RO.bind (RO.bind (ro_iter a) fun _ => RO.pure _) fun _ => RO.bind (RO.access rfl) fun _ =>
    RO.bind (ro_driveVisits (ro_splittedNext sro_refSrc) _ _) fun _ => RO.pure _

theorem ro_firstData {p : Prog α (Option Addr)} (h : RO p) : RO (do match (← p) with
        | some c => do return some (← dataRef c)
        | none => return none : Prog α (Option α)) := by
  refine RO.bind h fun o => ?_
  cases o with
  | none => exact RO.pure _
  | some c => exact RO.bind (ro_dataRef c) fun _ => RO.pure _

theorem RO.run {v : Vars} {env : Var → Option Handle} {p : Prog α β} {k : β → Prog α (Outcome Vars α)} (h1 : RO p) (h2 : ∀ b, RO (k b)) :
    RO (v.run env p k) := by
  unfold Vars.run
  induction p with
  | ret b => exact h2 b
  | fail e => cases e <;> trivial
  | acc a k' ih => exact ⟨h1.1, fun x => ih x (h1.2 x)⟩

theorem RO.onKids {v : Vars} {x : Var} {p : Path} {k : Handle → Addr → Prog α (Outcome Vars α)} (hk : ∀ hd n, RO (k hd n)) : RO (v.onKids x p k) := by
  unfold Vars.onKids
  split
  · trivial
  · split
    · trivial
    · refine RO.run (ro_locate _ _) fun o => ?_
      cases o with
      | none => trivial
      | some n => exact hk _ _

theorem RO.onNode {v : Vars} {x : Var} {l : Loc} {k : Addr → Prog α (Outcome Vars α)} (hk : ∀ n, RO (k n)) : RO (v.onNode x l k) := by
  unfold Vars.onNode
  split
  · trivial
  · split
    · trivial
    · split
      · split
        · exact hk _
        · trivial
      · refine RO.run (ro_locate _ _) fun o => ?_
        cases o with
        | none => trivial
        | some n => exact hk _

theorem ro_step (v : Vars) (op : Op α) (ho : op.reading = true) : RO (step v op) := by
  cases op <;> first | cases ho | skip
  case data x l => exact RO.onNode fun n => RO.run (ro_dataRef n) fun _ => trivial
  case degree x p => exact RO.onKids fun _ n => RO.run (ro_degree n) fun _ => trivial
  case nodeCount x p => exact RO.onKids fun _ n => RO.run (ro_nodeCount n) fun _ => trivial
  case hasNoChild x p => exact RO.onKids fun _ n => RO.run (ro_hasNoChild n) fun _ => trivial
  case childData x p => exact RO.onKids fun _ n => RO.run (RO.bind (ro_children n) fun _ => ro_readMany ro_dataRef _) fun _ => trivial
  case frontData x p => exact RO.onKids fun _ n => RO.run (ro_firstData (RO.access rfl)) fun _ => trivial
  case backData x p => exact RO.onKids fun _ n => RO.run (ro_firstData (RO.access rfl)) fun _ => trivial
  case bfs x l k => exact RO.onNode fun n => RO.run (ro_bfsRun k n) fun _ => trivial
  case bfsChildren x p k => exact RO.onKids fun _ n => RO.run (ro_bfsChildrenRun k n) fun _ => trivial
  case iterLen x =>
    simp only [step]
    split
    · exact RO.run (ro_degree _) fun _ => trivial
    · trivial

theorem ro_exec (v : Vars) (ops : List (Op α)) (ho : ∀ op ∈ ops, op.reading = true) : RO (exec v ops) := by
  induction ops generalizing v with
  | nil => trivial
  | cons op ops ih =>
    refine RO.bind (ro_step v op (ho op (by simp))) fun r => ?_
    have ih := fun v => ih v fun o h => ho o (by simp [h])
    cases r <;> exact RO.bind (ih _) fun _ => trivial

theorem ro_alone {A : Alloc} {h : Heap α} {p : Prog α β} (hp : RO p) : (alone A (h, p)).1 = h ∧ RO (alone A (h, p)).2 := by
  cases p with
  | ret b => exact ⟨rfl, hp⟩
  | fail e => exact ⟨rfl, hp⟩
  | acc a k =>
    simp only [alone]
    rcases Acc.reads_same (A := A) hp.1 h with ⟨x, e⟩ | ⟨x, e⟩
    · rw [e]; exact ⟨rfl, hp.2 x⟩
    · rw [e]; exact ⟨rfl, trivial⟩

/-- Threads that only read and never fail. -/
theorem ro_sys {s : Sys n α β} (hp : ∀ j, RO (s.th j).prog) (hg : ∀ j, Good (As j) ((s.th j).view s.mem, (s.th j).prog)) (i : Fin n) :
    ∃ s', s.step As i = some s' ∧ (∀ x y l, { s'.mem with nextAddr := x, nextVec := y, log := l } = { s.mem with nextAddr := x, nextVec := y, log := l }) ∧ (∀ j, (s'.th j).view s'.mem = (s.th j).view s.mem) ∧
      (∀ j, (s'.th j).log = (s.th j).log) ∧
      ∀ j, ((s'.th j).view s'.mem, (s'.th j).prog) = if j = i then alone (As i) ((s.th i).view s.mem, (s.th i).prog) else ((s.th j).view s.mem, (s.th j).prog) := by
  have stay : (∀ a k, (s.th i).prog ≠ .acc a k) → alone (As i) ((s.th i).view s.mem, (s.th i).prog) = ((s.th i).view s.mem, (s.th i).prog) := by
    intro h
    cases e : (s.th i).prog with
    | acc a k => exact absurd e (h a k)
    | ret b => rfl
    | fail e => rfl
  cases e : (s.th i).prog with
  | ret b => refine ⟨s, by simp [Sys.step, e], fun _ _ _ => rfl, fun _ => rfl, fun _ => rfl, fun j => ?_⟩; split; · subst j; rw [e]; rfl
             · rfl
  | fail x => refine ⟨s, by simp [Sys.step, e], fun _ _ _ => rfl, fun _ => rfl, fun _ => rfl, fun j => ?_⟩; split; · subst j; rw [e]; rfl
              · rfl
  | acc a k =>
    have h1 := hp i
    rw [e] at h1
    have h2 := hg i
    rw [e] at h2
    have hf : s.free As i a = true := by cases a <;> first | rfl | cases h1.1
    rcases Acc.reads_same (A := As i) h1.1 ((s.th i).view s.mem) with ⟨x, er⟩ | ⟨x, er⟩
    · refine ⟨⟨(s.th i).view s.mem, Sys.set s.th i ⟨(s.th i).nextAddr, (s.th i).nextVec, (s.th i).log, k x⟩⟩, ?_, fun _ _ _ => rfl, ?_, ?_, ?_⟩
      · simp only [Sys.step, e, hf, if_true, er]; rfl
      · intro j
        dsimp only [Sys.set]
        split
        · subst j; rfl
        · rfl
      · intro j
        dsimp only [Sys.set]
        split
        · subst j; rfl
        · rfl
      · intro j
        dsimp only [Sys.set]
        split
        · simp only [alone, er]; rfl
        · rfl
    · exfalso
      have hx := h2 x _ (by simp only [Prog.run, er]; rfl)
      subst hx
      revert er
      cases a with
      | ptr f a =>
        cases f <;> (cases l : ((s.th i).view s.mem).live a <;> (simp only [Acc.run, Fld.get, Trees.getPrev, Trees.getNext, Trees.getHead, Trees.getTail, Trees.getUp, rd, l]; intro h; cases h))
      | size a => cases l : ((s.th i).view s.mem).live a <;> (simp only [Acc.run, Trees.getSize, rd, l]; intro h; cases h)
      | data a => cases l : ((s.th i).view s.mem).live a <;> (simp only [Acc.run, Trees.getData, rd, l]; intro h; cases h)
      | vecNode v i =>
        simp only [Acc.run, Trees.vecNode]
        split
        · intro h; cases h
        · split <;> (intro h; cases h)
      | getRef v => simp only [Acc.run]; split <;> (intro h; cases h)
      | bound => intro h; cases h
      | setPtr _ _ _ => cases h1.1
      | setSize _ _ => cases h1.1
      | setData _ _ => cases h1.1
      | make _ => cases h1.1
      | rcDrop _ => cases h1.1
      | newVec _ => cases h1.1
      | setRef _ _ => cases h1.1
      | freeVec _ => cases h1.1
      | logDrop _ => cases h1.1

theorem ro_sys_run {s : Sys n α β} (hp : ∀ j, RO (s.th j).prog) (hg : ∀ j, Good (As j) ((s.th j).view s.mem, (s.th j).prog)) (sched : List (Fin n)) :
    ∃ s', s.run As sched = some s' ∧ (∀ x y l, { s'.mem with nextAddr := x, nextVec := y, log := l } = { s.mem with nextAddr := x, nextVec := y, log := l }) ∧ (∀ j, (s'.th j).view s'.mem = (s.th j).view s.mem) ∧ (∀ j, (s'.th j).log = (s.th j).log) ∧
      (∀ j, RO (s'.th j).prog) ∧
      ∀ j, ((s'.th j).view s'.mem, (s'.th j).prog) = (alone (As j))^[sched.count j] ((s.th j).view s.mem, (s.th j).prog) := by
  induction sched generalizing s with
  | nil => exact ⟨s, rfl, fun _ _ _ => rfl, fun _ => rfl, fun _ => rfl, hp, fun _ => rfl⟩
  | cons i is ih =>
    obtain ⟨s1, e1, m1, v1, l1, a1⟩ := ro_sys hp hg i
    have p1 : ∀ j, RO (s1.th j).prog := by
      intro j
      have := congrArg Prod.snd (a1 j)
      dsimp only at this
      rw [this]
      split
      · exact (ro_alone (hp i)).2
      · exact hp j
    have g1 : ∀ j, Good (As j) ((s1.th j).view s1.mem, (s1.th j).prog) := by
      intro j
      rw [a1 j]
      split
      · subst j; exact (hg i).alone
      · exact hg j
    obtain ⟨s2, e2, m2, v2, l2, p2, a2⟩ := ih p1 g1
    refine ⟨s2, ?_, fun x y l => (m2 x y l).trans (m1 x y l), fun j => (v2 j).trans (v1 j), fun j => (l2 j).trans (l1 j), p2, fun j => ?_⟩
    · simp only [Sys.run, e1, Option.bind]; exact e2
    · rw [a2 j, a1 j, List.count_cons]
      by_cases h : j = i
      · subst h; simp [Function.iterate_succ_apply]
      · simp [h, Ne.symm h]

theorem ro_norace {s : Sys n α β} (hp : ∀ j, RO (s.th j).prog) : ¬ s.Race := by
  rintro ⟨i, j, a, ka, b, kb, -, e1, e2, h, -⟩
  have h1 := hp i
  have h2 := hp j
  rw [e1] at h1
  rw [e2] at h2
  rcases h with h | h
  · rw [h1.1] at h; cases h
  · rw [h2.1] at h; cases h

end Fine
end Trees
