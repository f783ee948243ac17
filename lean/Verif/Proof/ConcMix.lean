import Verif.Proof.ConcRead
/-
Threads that own some values and share others by reference: a thread never writes to what is shared.
-/
namespace Trees
set_option linter.unusedSimpArgs false
set_option linter.unusedVariables false
variable {α β γ δ ι κ σ τ : Type}
namespace Fine
variable {A : Alloc} {S : Heap α}

/-- An access that leaves `S` as it is: it reads, or it touches nothing of `S`. -/
def Spare (S : Heap α) (a : Acc α) : Prop :=
  a.reads = true ∨ ((∀ b, a.node? = some b → ¬ S.Here b) ∧ ∀ v, a.vec? = some v → S.vec v = none)

/-- A program that, run from `H`, leaves `S` as it is. -/
def NW (S : Heap α) (A : Alloc) : Prog α β → Heap α → Prop
  | .ret _, _ => True
  | .fail _, _ => True
  | .acc a k, H => Spare S a ∧ ∀ x H', a.run A H = .ok x H' → NW S A (k x) H'

theorem NW.bind {p : Prog α β} {f : β → Prog α γ} {H : Heap α} (h1 : NW S A p H) (h2 : ∀ b H', p.run A H = .ok b H' → NW S A (f b) H') :
    NW S A (p.bind f) H := by
  induction p generalizing H with
  | ret b => exact h2 b H rfl
  | fail e => trivial
  | acc a k ih =>
    refine ⟨h1.1, fun x H' e => ih x (h1.2 x H' e) fun b H2 e2 => h2 b H2 ?_⟩
    simp only [Prog.run, e]; exact e2

theorem NW.of_ro {p : Prog α β} (h : RO p) (H : Heap α) : NW S A p H := by
  induction p generalizing H with
  | ret b => trivial
  | fail e => trivial
  | acc a k ih => exact ⟨.inl h.1, fun x H' _ => ih x (h.2 x) H'⟩

theorem run_okay {a : Acc α} {H H' : Heap α} {x : a.Ret} (e : a.run A H = .ok x H') : Okay A H a := by
  cases a with
  | make d => simp only [Acc.run, makeNodeA] at e; split at e; assumption; cases e
  | newVec n => simp only [Acc.run, newVecA] at e; split at e; assumption; cases e
  | _ => trivial

theorem reads_sub {a : Acc α} {V : Heap α} {x : a.Ret} (hs : Sub S V) (h1 : a.reads = true) (h2 : a ≠ .bound) (e : a.run A S = .ok x S) :
    a.run A V = .ok x V := by
  cases a with
  | ptr f b =>
    cases f with
    | prev => obtain ⟨l, rfl, -⟩ := rd_ok e; simp [Acc.run, Fld.get, Trees.getPrev, rd, hs.live b l, hs.prev b l]; rfl
    | next => obtain ⟨l, rfl, -⟩ := rd_ok e; simp [Acc.run, Fld.get, Trees.getNext, rd, hs.live b l, hs.next b l]; rfl
    | head => obtain ⟨l, rfl, -⟩ := rd_ok e; simp [Acc.run, Fld.get, Trees.getHead, rd, hs.live b l, hs.head b l]; rfl
    | tail => obtain ⟨l, rfl, -⟩ := rd_ok e; simp [Acc.run, Fld.get, Trees.getTail, rd, hs.live b l, hs.tail b l]; rfl
    | up => obtain ⟨l, rfl, -⟩ := rd_ok e; simp [Acc.run, Fld.get, Trees.getUp, rd, hs.live b l, hs.up b l]; rfl
  | size b => obtain ⟨l, rfl, -⟩ := rd_ok e; simp [Acc.run, Trees.getSize, rd, hs.live b l, hs.size b l]; rfl
  | data b => obtain ⟨l, rfl, -⟩ := rd_ok e; simp [Acc.run, Trees.getData, rd, hs.live b l, hs.data b l]; rfl
  | vecNode v i =>
    simp only [Acc.run, Trees.vecNode] at e ⊢
    cases ev : S.vec v with
    | none => rw [ev] at e; cases e
    | some nv =>
      rw [ev] at e
      rw [hs.vec v nv ev]
      dsimp only at e ⊢
      split at e
      · rename_i hi; cases e; rw [if_pos hi]; rfl
      · cases e
  | getRef v =>
    simp only [Acc.run] at e ⊢
    cases ev : S.vec v with
    | none => rw [ev] at e; cases e
    | some nv => rw [ev] at e; rw [hs.vec v nv ev]; cases e; rfl
  | bound => exact absurd rfl h2
  | setPtr _ _ _ => cases h1
  | setSize _ _ => cases h1
  | setData _ _ => cases h1
  | make _ => cases h1
  | rcDrop _ => cases h1
  | newVec _ => cases h1
  | setRef _ _ => cases h1
  | freeVec _ => cases h1
  | logDrop _ => cases h1

/-- The first program does what the second does, and reads in `S` besides. -/
inductive Ins (S : Heap α) (A : Alloc) (R : β → γ → Prop) : Prog α β → Prog α γ → Prop
  | ret {b c} (h : R b c) : Ins S A R (.ret b) (.ret c)
  | fail (e) : Ins S A R (.fail e) (.fail e)
  | acc (a : Acc α) {k k'} (h : ∀ x, Ins S A R (k x) (k' x)) : Ins S A R (.acc a k) (.acc a k')
  | read (a : Acc α) {k p' x} (h1 : a.reads = true) (h2 : a ≠ .bound) (h3 : a.run A S = .ok x S) (h : Ins S A R (k x) p') : Ins S A R (.acc a k) p'

theorem Ins.refl {R : β → β → Prop} (h : ∀ b, R b b) (p : Prog α β) : Ins S A R p p := by
  induction p with
  | ret b => exact .ret (h b)
  | fail e => exact .fail e
  | acc a k ih => exact .acc a ih

theorem Ins.bind {β' γ' : Type} {R : β → γ → Prop} {R' : β' → γ' → Prop} {p : Prog α β} {p' : Prog α γ} {f : β → Prog α β'} {f' : γ → Prog α γ'}
    (h : Ins S A R p p') (hf : ∀ b c, R b c → Ins S A R' (f b) (f' c)) : Ins S A R' (p.bind f) (p'.bind f') := by
  induction h with
  | ret h => exact hf _ _ h
  | fail e => exact .fail e
  | acc a h ih => exact .acc a ih
  | read a h1 h2 h3 h ih => exact .read a h1 h2 h3 ih

theorem Ins.catch_ {β' γ' : Type} {R : β → γ → Prop} {R' : β' → γ' → Prop} {p : Prog α β} {p' : Prog α γ} {f : β → Prog α β'} {f' : γ → Prog α γ'}
    {g : Err → Prog α β'} {g' : Err → Prog α γ'}
    (h : Ins S A R p p') (hf : ∀ b c, R b c → Ins S A R' (f b) (f' c)) (hg : ∀ e, Ins S A R' (g e) (g' e)) : Ins S A R' (p.catch_ f g) (p'.catch_ f' g') := by
  induction h with
  | ret h => exact hf _ _ h
  | fail e => exact hg e
  | acc a h ih => exact .acc a ih
  | read a h1 h2 h3 h ih => exact .read a h1 h2 h3 ih

theorem Ins.mono {R R' : β → γ → Prop} {p : Prog α β} {p' : Prog α γ} (h : Ins S A R p p') (hf : ∀ b c, R b c → R' b c) : Ins S A R' p p' := by
  induction h with
  | ret h => exact .ret (hf _ _ h)
  | fail e => exact .fail e
  | acc a h ih => exact .acc a ih
  | read a h1 h2 h3 h ih => exact .read a h1 h2 h3 ih

/-- The part `Q` of memory that belongs to the thread, in all that it can see, `V`; what is shared is `S`. -/
structure St (A : Alloc) (S Q V : Heap α) : Prop where
  sub : Sub Q V
  same : Same3 Q V
  disj : Disj Q S
  shared : Sub S V
  known : ∀ v nv, S.vec v = some nv → ∃ w, w < V.nextVec ∧ A.vec w = v
  cov : ∀ a, V.live a = true → Q.live a = true ∨ S.live a = true
  vcov : ∀ v nv, V.vec v = some nv → Q.vec v = some nv ∨ S.vec v = some nv

theorem St.out {Q V : Heap α} (st : St A S Q V) {a : Acc α} (h : Okay A V a) : Out A V S a := by
  have key : ∀ x, Trees.inUse A V x = false → ¬ S.Here x := by
    intro x hx hh
    have : Trees.inUse A V x = true := inUse_iff.mpr (by
      rcases hh with hh | ⟨v, nv, e, h1⟩
      · exact .inl (st.shared.live x hh)
      · obtain ⟨w, hw, rfl⟩ := st.known v nv e
        exact .inr ⟨w, nv, hw, st.shared.vec _ nv e, h1⟩)
    rw [this] at hx; cases hx
  cases a with
  | make d => simp only [Okay, Alloc.okNode, Bool.not_eq_true'] at h; exact key _ h
  | newVec cap =>
    simp only [Okay, Alloc.okBlock, Bool.and_eq_true, List.all_eq_true, List.mem_range, Bool.not_eq_true', Option.isNone_iff_eq_none] at h
    refine ⟨?_, fun k hk => key _ (h.2 k hk).2⟩
    cases e : S.vec (A.vec V.nextVec) with
    | none => rfl
    | some nv => have := st.shared.vec _ nv e; exact absurd (this.symm.trans h.1) (by simp)
  | _ => trivial

/-- One access of a thread to its own memory. -/
theorem St.acc {Q V Q1 : Heap α} {a : Acc α} {x : a.Ret} (st : St A S Q V) (ok : Okay A V a) (e : a.run A Q = .ok x Q1) :
    ∃ V1, a.run A V = .ok x V1 ∧ St A S Q1 V1 ∧ Eff A a Q V Q1 V1 := by
  obtain ⟨V1, e1, E⟩ := acc_part st.sub st.same e ok
  obtain ⟨h1, h2⟩ := E.other S st.shared st.disj (st.out ok)
  refine ⟨V1, e1, ⟨E.sub, E.same, h2, h1, fun v nv hv => ?_, fun b hb => ?_, fun v nv hv => ?_⟩, E⟩
  · obtain ⟨w, hw, ew⟩ := st.known v nv hv
    exact ⟨w, Nat.lt_of_lt_of_le hw (acc_counters e1).2, ew⟩
  · rcases E.live b hb with h | ⟨h, h'⟩
    · exact .inl h
    · exact (st.cov b h).imp (fun h3 => absurd h3 (by rw [h']; simp)) id
  · rcases E.vec v nv hv with h | ⟨h, h'⟩
    · exact .inl h
    · exact (st.vcov v nv h).imp (fun h3 => absurd h3 (by rw [h']; simp)) id

theorem Good.spare {Q : Heap α} {a : Acc α} {k : a.Ret → Prog α β} (g : Good A (Q, .acc a k)) (d : Disj Q S) : Spare S a := by
  refine .inr ⟨fun b hb hS => ?_, fun v hv => ?_⟩
  · obtain ⟨x, H', e⟩ := g.touch (.inl (by rw [hb]; simp))
    exact d.here b (.inl (node_live e hb)) hS
  · obtain ⟨x, H', e⟩ := g.touch (.inr (by rw [hv]; simp))
    obtain ⟨nv, h⟩ := vec_there e hv
    exact d.vec v nv h

theorem Ins.runs {R : β → γ → Prop} {p : Prog α β} {p' : Prog α γ} (h : Ins S A R p p') {Q V : Heap α} (st : St A S Q V) (g : Good A (Q, p')) :
    NW S A p V ∧ ∀ b V', p.run A V = .ok b V' → ∃ c Q', p'.run A Q = .ok c Q' ∧ R b c ∧ St A S Q' V' := by
  induction h generalizing Q V with
  | ret h => refine ⟨trivial, fun b V' e => ?_⟩; cases e; exact ⟨_, Q, rfl, h, st⟩
  | fail e => exact ⟨trivial, fun b V' e => by cases e⟩
  | @acc a k k' h ih =>
    have key : ∀ x V1, a.run A V = .ok x V1 → ∃ Q1, a.run A Q = .ok x Q1 ∧ St A S Q1 V1 ∧ Good A (Q1, k' x) := by
      intro x V1 e
      have ok := run_okay e
      rcases g.next with ⟨y, Q1, e1⟩ | ⟨Q1, e1⟩
      · obtain ⟨V2, e2, st2, -⟩ := st.acc ok e1
        rw [e] at e2; cases e2
        refine ⟨Q1, e1, st2, ?_⟩
        have := g.alone
        simp only [alone, e1] at this
        exact this
      · exact absurd e1 (okay_run (okay_mono st.sub st.same ok))
    constructor
    · refine ⟨g.spare st.disj, fun x V1 e => ?_⟩
      obtain ⟨Q1, e1, st1, g1⟩ := key x V1 e
      exact (ih x st1 g1).1
    · intro b V' e
      simp only [Prog.run] at e
      cases e1 : a.run A V with
      | err y V1 => rw [e1] at e; cases e
      | ok x V1 =>
        rw [e1] at e
        obtain ⟨Q1, e2, st1, g1⟩ := key x V1 e1
        obtain ⟨c, Q', e3, h1, h2⟩ := (ih x st1 g1).2 b V' e
        exact ⟨c, Q', by simp only [Prog.run, e2]; exact e3, h1, h2⟩
  | @read a k p' x h1 h2 h3 h ih =>
    have e1 := reads_sub st.shared h1 h2 h3
    constructor
    · refine ⟨.inl h1, fun y V1 e => ?_⟩
      rw [e1] at e; cases e
      exact (ih st g).1
    · intro b V' e
      simp only [Prog.run, e1] at e
      exact (ih st g).2 b V' e

/-! ### Programs that read -/

/-- Only reads (and does not ask for the number of allocations, nor blames the allocator). -/
def RB : Prog α β → Prop
  | .ret _ => True
  | .fail e => e ≠ .alloc
  | .acc a k => a.reads = true ∧ a ≠ .bound ∧ ∀ x, RB (k x)

theorem RB.bind {p : Prog α β} {f : β → Prog α γ} (h1 : RB p) (h2 : ∀ b, RB (f b)) : RB (p >>= f) := by
  show RB (p.bind f)
  induction p with
  | ret b => exact h2 b
  | fail e => exact h1
  | acc a k ih => exact ⟨h1.1, h1.2.1, fun x => ih x (h1.2.2 x)⟩

theorem RB.pure (b : β) : RB (Pure.pure b : Prog α β) := trivial
theorem RB.access {a : Acc α} (h : a.reads = true) (h2 : a ≠ .bound) : RB (access a) := ⟨h, h2, fun _ => trivial⟩

theorem Ins.of_rb {p : Prog α β} (h : RB p) {b : β} {S' : Heap α} (e : p.run A S = .ok b S') (c : γ) : Ins S A (fun b' c' => b' = b ∧ c' = c) p (.ret c) := by
  induction p with
  | ret b' => cases e; exact .ret ⟨rfl, rfl⟩
  | fail x => cases e
  | acc a k ih =>
    simp only [Prog.run] at e
    rcases Acc.reads_same (A := A) h.1 S with ⟨x, e1⟩ | ⟨x, e1⟩
    · rw [e1] at e
      exact .read a h.1 h.2.1 e1 (ih x (h.2.2 x) e)
    · rw [e1] at e; cases e

theorem rb_iterNext (it : RawIter) : RB (iterNext it : Prog α _) := by
  unfold iterNext
  split
  · exact .pure _
  · unfold uncountedNext
    refine RB.bind ?_ fun _ => .pure _
    split
    · exact RB.bind (RB.access rfl (by simp)) fun _ => .pure _
    · exact .pure _

theorem rb_iter (a : Addr) : RB (iter a : Prog α _) := by
  unfold iter
  refine RB.bind (RB.access rfl (by simp)) fun o => ?_
  cases o with
  | none => exact .pure _
  | some c => exact RB.bind (RB.bind (RB.access rfl (by simp)) fun _ => .pure _) fun _ => .pure _

theorem rb_iterNth (n : Nat) (it : RawIter) : RB (iterNth n it : Prog α _) := by
  induction n generalizing it with
  | zero => exact rb_iterNext it
  | succ n ih =>
    unfold iterNth
    refine RB.bind (rb_iterNext it) fun x => ?_
    obtain ⟨o, it'⟩ := x
    cases o with
    | none => exact .pure _
    | some c => exact ih _

theorem rb_locate (p : Path) (a : Addr) : RB (locate a p : Prog α _) := by
  induction p generalizing a with
  | nil => exact .pure _
  | cons i p ih =>
    unfold locate
    refine RB.bind (rb_iter a) fun it => RB.bind (rb_iterNth i it) fun x => ?_
    obtain ⟨o, it'⟩ := x
    cases o with
    | none => exact .pure _
    | some c => exact ih _

theorem rb_dataRef (a : Addr) : RB (dataRef a : Prog α _) := by
  unfold dataRef
  refine RB.bind (RB.access rfl (by simp)) fun d => ?_
  split
  · trivial
  · exact fun h => by cases h

theorem rb_splittedNext (l : List RawIter) : RB (splittedNext refSrc l : Prog α _) := by
  induction l with
  | nil => exact .pure _
  | cons it rest ih =>
    unfold splittedNext
    refine RB.bind (rb_iterNext it) fun x => ?_
    obtain ⟨o, it'⟩ := x
    cases o with
    | none => exact RB.bind (.pure _) fun _ => ih
    | some k =>
      refine RB.bind ?_ fun y => ?_
      · exact RB.bind (rb_dataRef k) fun _ => RB.bind (rb_iter k) fun _ => RB.bind (RB.access rfl (by simp)) fun _ => .pure _
      · obtain ⟨d, ch, desc⟩ := y
        exact RB.bind (.pure _) fun n => .pure _

theorem rb_mapNext (f : Nat → α → β) (s : List RawIter × Nat) : RB (mapNext f (splittedNext refSrc) s : Prog α _) := by
  unfold mapNext
  refine RB.bind (rb_splittedNext s.1) fun x => ?_
  obtain ⟨o, s'⟩ := x
  cases o <;> exact .pure _

/-! ### Calls that do not mention what is shared -/

/-- `v`: the variables of a thread; `v0`: without the shared ones (`sh`), whose handles are given by `w`. -/
structure Over (sh : Var → Prop) (w : Var → Option Handle) (v v0 : Vars) : Prop where
  fresh : v.fresh = v0.fresh
  low : ∀ x, sh x → x < v.fresh
  mine : ∀ x, ¬ sh x → v.env x = v0.env x
  theirs : ∀ x, sh x → v.env x = w x
  gone : ∀ x, sh x → v0.env x = none

/-- Related outcomes. -/
def OutRel (sh : Var → Prop) (w : Var → Option Handle) : Outcome Vars α → Outcome Vars α → Prop
  | .ok v o, .ok v0 o0 => Over sh w v v0 ∧ o = o0
  | .panic v, .panic v0 => Over sh w v v0
  | .rejected, .rejected => True
  | .bad, .bad => True
  | _, _ => False

section Own
variable {sh : Var → Prop} {w : Var → Option Handle} {v v0 : Vars}

theorem Over.set (o : Over sh w v v0) {x : Var} (hx : ¬ sh x) (hd : Option Handle) : Over sh w ⟨v.setEnv x hd, v.fresh⟩ ⟨v0.setEnv x hd, v0.fresh⟩ where
  fresh := o.fresh
  low := o.low
  mine y hy := by simp only [Vars.setEnv, upd_apply]; split; rfl; exact o.mine y hy
  theirs y hy := by simp only [Vars.setEnv, upd_apply]; split; (subst y; exact absurd hy hx); exact o.theirs y hy
  gone y hy := by simp only [Vars.setEnv, upd_apply]; split; (subst y; exact absurd hy hx); exact o.gone y hy

theorem Over.eta (o : Over sh w v v0) : Over sh w ⟨v.env, v.fresh⟩ ⟨v0.env, v0.fresh⟩ := o

theorem ins_retVar {env env0 : Var → Option Handle} (o : Over sh w ⟨env, v.fresh⟩ ⟨env0, v0.fresh⟩) (hd : Handle) :
    Ins S A (OutRel (α := α) sh w) (v.retVar env hd) (v0.retVar env0 hd) := by
  have f := o.fresh
  dsimp only at f
  refine .ret ⟨⟨by simp only [f], fun x hx => Nat.lt_succ_of_lt (o.low x hx), fun y hy => ?_, fun y hy => ?_, fun y hy => ?_⟩, by rw [f]⟩
  · simp only [f, upd_apply]; split; rfl; exact o.mine y hy
  · simp only [upd_apply]; rw [if_neg (Nat.ne_of_lt (o.low y hy))]; exact o.theirs y hy
  · simp only [← f, upd_apply]; rw [if_neg (Nat.ne_of_lt (o.low y hy))]; exact o.gone y hy

theorem ins_ret {env env0 : Var → Option Handle} (o : Over sh w ⟨env, v.fresh⟩ ⟨env0, v0.fresh⟩) (x : Trees.Out α) :
    Ins S A (OutRel (α := α) sh w) (v.ret env x) (v0.ret env0 x) := .ret ⟨o, rfl⟩

theorem ins_retPop (o : Over sh w v v0) (x : Option Addr) : Ins S A (OutRel (α := α) sh w) (v.retPop x) (v0.retPop x) := by
  cases x with
  | none => exact ins_ret o _
  | some c => exact ins_retVar o _

theorem Ins.vrun {R : β → γ → Prop} {env env0 : Var → Option Handle} {p : Prog α β} {p' : Prog α γ} {k : β → Prog α (Outcome Vars α)} {k' : γ → Prog α (Outcome Vars α)}
    (h : Ins S A R p p') (o : Over sh w ⟨env, v.fresh⟩ ⟨env0, v0.fresh⟩) (hk : ∀ b c, R b c → Ins S A (OutRel sh w) (k b) (k' c)) :
    Ins S A (OutRel sh w) (v.run env p k) (v0.run env0 p' k') := by
  unfold Vars.run
  refine h.catch_ hk fun e => ?_
  cases e with
  | panic => exact .ret o
  | alloc => exact .fail _
  | ub => exact .ret trivial
  | fuel => exact .ret trivial

theorem Ins.vrun1 {env env0 : Var → Option Handle} (p : Prog α β) {k : β → Prog α (Outcome Vars α)} {k' : β → Prog α (Outcome Vars α)}
    (o : Over sh w ⟨env, v.fresh⟩ ⟨env0, v0.fresh⟩) (hk : ∀ b, Ins S A (OutRel sh w) (k b) (k' b)) :
    Ins S A (OutRel sh w) (v.run env p k) (v0.run env0 p k') :=
  Ins.vrun (R := Eq) (.refl (fun _ => rfl) p) o fun b c e => e ▸ hk b

theorem ins_onKids (o : Over sh w v v0) {x : Var} (hx : ¬ sh x) {p : Path} {k k' : Handle → Addr → Prog α (Outcome Vars α)}
    (hk : ∀ hd n, Ins S A (OutRel sh w) (k hd n) (k' hd n)) : Ins S A (OutRel sh w) (v.onKids x p k) (v0.onKids x p k') := by
  unfold Vars.onKids
  rw [o.mine x hx]
  cases v0.env x with
  | none => exact .ret trivial
  | some hd =>
    dsimp only
    split
    · exact .ret trivial
    · refine Ins.vrun1 _ o fun b => ?_
      cases b with
      | none => exact .ret ⟨o, rfl⟩
      | some n => exact hk _ _

theorem ins_onNode (o : Over sh w v v0) {x : Var} (hx : ¬ sh x) {l : Loc} {k k' : Addr → Prog α (Outcome Vars α)}
    (hk : ∀ n, Ins S A (OutRel sh w) (k n) (k' n)) : Ins S A (OutRel sh w) (v.onNode x l k) (v0.onNode x l k') := by
  unfold Vars.onNode
  rw [o.mine x hx]
  cases v0.env x with
  | none => exact .ret trivial
  | some hd =>
    dsimp only
    split
    · exact .ret trivial
    · cases l with
      | root => cases hd <;> first | exact hk _ | exact .ret trivial
      | child q i =>
        refine Ins.vrun1 _ o fun b => ?_
        cases b with
        | none => exact .ret ⟨o, rfl⟩
        | some n => exact hk _

theorem ins_takeTree (o : Over sh w v v0) {x y : Var} (hy : ¬ sh y) {k k' : Addr → Prog α (Outcome Vars α)}
    (hk : ∀ n, Ins S A (OutRel sh w) (k n) (k' n)) : Ins S A (OutRel sh w) (v.takeTree x y k) (v0.takeTree x y k') := by
  unfold Vars.takeTree
  rw [o.mine y hy]
  split
  · exact .ret trivial
  · cases v0.env y with
    | none => exact .ret trivial
    | some hd => cases hd <;> first | exact hk _ | exact .ret trivial

theorem ins_takeForest (o : Over sh w v v0) {x y : Var} (hy : ¬ sh y) {k k' : Addr → Prog α (Outcome Vars α)}
    (hk : ∀ n, Ins S A (OutRel sh w) (k n) (k' n)) : Ins S A (OutRel sh w) (v.takeForest x y k) (v0.takeForest x y k') := by
  unfold Vars.takeForest
  rw [o.mine y hy]
  split
  · exact .ret trivial
  · cases v0.env y with
    | none => exact .ret trivial
    | some hd => cases hd <;> first | exact hk _ | exact .ret trivial

theorem ins_step (o : Over sh w v v0) (op : Op α) (hv : ∀ x ∈ op.vars, ¬ sh x) : Ins S A (OutRel sh w) (step v op) (step v0 op) := by
  cases op
  case treeNew d => exact Ins.vrun1 _ o fun _ => ins_retVar o _
  case forestNew => exact Ins.vrun1 _ o fun _ => ins_retVar o _
  case treeFromTuple t => simp only [step]; split; exact Ins.vrun1 _ o fun _ => ins_retVar o _; exact .ret trivial
  case forestFromTuple t => simp only [step]; split; exact Ins.vrun1 _ o fun _ => ins_retVar o _; exact .ret trivial
  case pushFront x p y | pushBack x p y =>
    have hx := hv x (by simp [Op.vars]); have hy := hv y (by simp [Op.vars])
    exact ins_takeTree o hy fun t => ins_onKids o hx fun _ n => Ins.vrun1 _ (o.set hy _) fun _ => ins_ret (o.set hy _) _
  case prepend x p y | append x p y =>
    have hx := hv x (by simp [Op.vars]); have hy := hv y (by simp [Op.vars])
    exact ins_takeForest o hy fun t => ins_onKids o hx fun _ n => Ins.vrun1 _ (o.set hy _) fun _ => ins_ret (o.set hy _) _
  case insertPrevSib x p y | insertNextSib x p y =>
    have hx := hv x (by simp [Op.vars]); have hy := hv y (by simp [Op.vars])
    exact ins_takeTree o hy fun t => ins_onNode o hx fun n => Ins.vrun1 _ (o.set hy _) fun _ => ins_ret (o.set hy _) _
  case popFront x p | popBack x p =>
    have hx := hv x (by simp [Op.vars])
    exact ins_onKids o hx fun _ n => Ins.vrun1 _ o fun _ => ins_retPop o _
  case detach x l =>
    have hx := hv x (by simp [Op.vars])
    exact ins_onNode o hx fun n => Ins.vrun1 _ o fun _ => ins_retVar o _
  case mapBfs x l f =>
    have hx := hv x (by simp [Op.vars])
    exact ins_onNode o hx fun n => Ins.vrun1 _ o fun _ => ins_retVar o _
  case mapBfsForest x l f =>
    have hx := hv x (by simp [Op.vars])
    exact ins_onKids o hx fun _ n => Ins.vrun1 _ o fun _ => ins_retVar o _
  case setData x l d =>
    have hx := hv x (by simp [Op.vars])
    exact ins_onNode o hx fun n => Ins.vrun1 _ o fun _ => ins_ret o _
  case data x l =>
    have hx := hv x (by simp [Op.vars])
    exact ins_onNode o hx fun n => Ins.vrun1 _ o fun _ => ins_ret o _
  case bfs x l k =>
    have hx := hv x (by simp [Op.vars])
    exact ins_onNode o hx fun n => Ins.vrun1 _ o fun _ => ins_ret o _
  case bfsMut x l k f =>
    have hx := hv x (by simp [Op.vars])
    exact ins_onNode o hx fun n => Ins.vrun1 _ o fun _ => ins_ret o _
  case degree x p | nodeCount x p | hasNoChild x p | childData x p | frontData x p | backData x p =>
    have hx := hv x (by simp [Op.vars])
    exact ins_onKids o hx fun _ n => Ins.vrun1 _ o fun _ => ins_ret o _
  case bfsChildren x p k =>
    have hx := hv x (by simp [Op.vars])
    exact ins_onKids o hx fun _ n => Ins.vrun1 _ o fun _ => ins_ret o _
  case bfsChildrenMut x p k f =>
    have hx := hv x (by simp [Op.vars])
    exact ins_onKids o hx fun _ n => Ins.vrun1 _ o fun _ => ins_ret o _
  case abandon x =>
    have hx := hv x (by simp [Op.vars])
    simp only [step]
    rw [o.mine x hx]
    cases v0.env x with
    | none => exact .ret trivial
    | some hd => cases hd <;> first | exact .ret trivial | exact Ins.vrun1 _ o fun _ => ins_retVar (o.set hx _) _
  case drop x =>
    have hx := hv x (by simp [Op.vars])
    simp only [step]
    rw [o.mine x hx]
    cases v0.env x with
    | none => exact .ret trivial
    | some hd => cases hd <;> exact Ins.vrun1 _ (o.set hx _) fun _ => ins_ret (o.set hx _) _
  case intoIter x =>
    have hx := hv x (by simp [Op.vars])
    simp only [step]
    rw [o.mine x hx]
    cases v0.env x with
    | none => exact .ret trivial
    | some hd => cases hd <;> first | exact Ins.vrun1 _ (o.set hx _) fun _ => ins_retVar (o.set hx _) _ | exact ins_retVar (o.set hx _) _ | exact .ret trivial
  case iterNext x =>
    have hx := hv x (by simp [Op.vars])
    simp only [step]
    rw [o.mine x hx]
    cases v0.env x with
    | none => exact .ret trivial
    | some hd => cases hd <;> first | exact .ret trivial | exact Ins.vrun1 _ o fun _ => ins_retPop o _
  case iterLen x =>
    have hx := hv x (by simp [Op.vars])
    simp only [step]
    rw [o.mine x hx]
    cases v0.env x with
    | none => exact .ret trivial
    | some hd => cases hd <;> first | exact .ret trivial | exact Ins.vrun1 _ o fun _ => ins_ret o _
  case rebuild x f =>
    have hx := hv x (by simp [Op.vars])
    simp only [step]
    rw [o.mine x hx]
    cases v0.env x with
    | none => exact .ret trivial
    | some hd => cases hd <;> first | exact .ret trivial | exact Ins.vrun1 _ (o.set hx _) fun _ => ins_retVar (o.set hx _) _
  case intoBfs x k =>
    have hx := hv x (by simp [Op.vars])
    simp only [step]
    rw [o.mine x hx]
    cases v0.env x with
    | none => exact .ret trivial
    | some hd => cases hd <;> first | exact .ret trivial | exact Ins.vrun1 _ (o.set hx _) fun _ => ins_ret (o.set hx _) _

end Own

end Fine
end Trees
