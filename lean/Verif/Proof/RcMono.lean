import Verif.Proof.RcCoherent
/-
Identities are never used twice: a node that is gone stays gone.
-/
namespace Trees
set_option linter.unusedSimpArgs false
set_option linter.unusedVariables false
variable {α β γ : Type}

/-- No node comes back to life. -/
structure Fades (X Y : Heap α) : Prop where
  next : X.nextAddr ≤ Y.nextAddr
  live : ∀ a, a < X.nextAddr → Y.live a = true → X.live a = true

theorem Fades.refl (X : Heap α) : Fades X X := ⟨Nat.le_refl _, fun _ _ h => h⟩
theorem Fades.trans {X Y Z : Heap α} (h1 : Fades X Y) (h2 : Fades Y Z) : Fades X Z :=
  ⟨Nat.le_trans h1.next h2.next, fun a ha hl => h1.live a ha (h2.live a (Nat.lt_of_lt_of_le ha h1.next) hl)⟩
theorem Mono.gone {X Y : Heap α} (h : Mono X Y) : Fades X Y := ⟨h.nextAddr, h.live⟩

def Mortal (c : M α β) : Prop := ∀ X, Fades X (c X).heap

theorem Robust.mortal {c : M α β} (h : Robust c) : Mortal c := fun X => (h.mono X).gone
theorem Mortal.pure (b : β) : Mortal (Pure.pure b : M α β) := fun X => .refl X
theorem Mortal.throw (e : Err) : Mortal (M.throw e : M α β) := fun X => .refl X
theorem Mortal.bind {c : M α β} {f : β → M α γ} (hc : Mortal c) (hf : ∀ b, Mortal (f b)) : Mortal (c >>= f) := by
  intro X
  have := hc X
  simp only [M.bind_apply]
  cases e : c X with
  | ok b Y => rw [e] at this; exact this.trans (hf b Y)
  | err x Y => rw [e] at this; exact this
theorem Mortal.map {c : M α β} {f : β → γ} (hc : Mortal c) : Mortal (f <$> c) := by
  have : (f <$> c) = (c >>= fun b => Pure.pure (f b)) := rfl
  rw [this]; exact hc.bind fun _ => .pure _
theorem Mortal.seq {r : Res (Heap α) β} {f : M α γ} {X : Heap α} (hr : Fades X r.heap) (hf : Mortal f) {g : γ → Heap α → Res (Heap α) β}
    (hg : ∀ b Y, (g b Y).heap = Y) : Fades X ((f r.heap).bind g).heap := by
  have := hr.trans (hf r.heap)
  cases e : f r.heap with
  | ok b Y => rw [e] at this; simp only [Res.bind]; rw [hg]; exact this
  | err x Y => rw [e] at this; exact this

theorem mortal_wr {f : Heap α → Heap α} {a : Addr} (h1 : ∀ h, (f h).nextAddr = h.nextAddr) (h2 : ∀ h, (f h).live = h.live) : Mortal (wr f a) := by
  intro X
  simp only [wr]
  split
  · exact ⟨by simp [Res.heap, h1], fun b _ hb => by simpa [Res.heap, h2] using hb⟩
  · exact .refl X

theorem mortal_slot (r : RcRef) : Mortal (r.slot : M α _) := by
  cases r with
  | scattered a => intro X; simp only [RcRef.slot]; split <;> exact .refl X
  | piled v i => exact (rob_vecNode v i).mortal
theorem mortal_getCount (a : Addr) : Mortal (getCount a : M α _) := fun X => .refl X
theorem mortal_incrCount (a : Addr) : Mortal (incrCount a : M α _) := by
  intro X; simp only [incrCount]; split
  · exact .refl X
  · exact ⟨Nat.le_refl _, fun _ _ h => h⟩
theorem mortal_decrCount (a : Addr) : Mortal (decrCount a : M α _) := by
  intro X; simp only [decrCount]; split
  · exact .refl X
  · exact ⟨Nat.le_refl _, fun _ _ h => h⟩
theorem mortal_incrVec (v : Nat) : Mortal (incrVec v : M α _) := by
  intro X; simp only [incrVec]; split
  · exact .refl X
  · split
    · exact .refl X
    · exact ⟨Nat.le_refl _, fun _ _ h => h⟩
theorem mortal_vecIndex (v : Nat) (a : Addr) : Mortal (vecIndex v a : M α _) := by
  intro X; simp only [vecIndex]; split
  · exact .refl X
  · split <;> exact .refl X
theorem mortal_setBorrow (a : Addr) (b : Int) : Mortal (setBorrow a b : M α _) := mortal_wr (fun _ => rfl) (fun _ => rfl)
theorem mortal_rd {f : Heap α → Addr → β} {a : Addr} : Mortal (rd f a) := by
  intro X; simp only [rd]; split <;> exact .refl X

theorem mortal_finally {c : M α β} {f : M α Unit} (hc : Mortal c) (hf : Mortal f) : Mortal (finally_ c f) := by
  intro X
  have := hc X
  simp only [finally_]
  cases e : c X with
  | ok b Y => rw [e] at this; exact Mortal.seq (r := .ok b Y) this hf fun _ _ => rfl
  | err x Y =>
    rw [e] at this
    cases x with
    | panic => exact Mortal.seq (r := .err .panic Y) this hf fun _ _ => rfl
    | ub => exact this
    | fuel => exact this
    | alloc => exact this

theorem mortal_onPanic {c : M α β} {f : M α Unit} (hc : Mortal c) (hf : Mortal f) : Mortal (onPanic c f) := by
  intro X
  have := hc X
  simp only [onPanic]
  cases e : c X with
  | ok b Y => rw [e] at this; exact this
  | err x Y =>
    rw [e] at this
    cases x with
    | panic => exact Mortal.seq (r := .err .panic Y) this hf fun _ _ => rfl
    | ub => exact this
    | fuel => exact this
    | alloc => exact this

syntax "mor1" : tactic
macro_rules | `(tactic| mor1) => `(tactic| assumption)
macro_rules | `(tactic| mor1) => `(tactic| split)
macro_rules | `(tactic| mor1) => `(tactic| with_reducible refine Mortal.map ?_)
macro_rules | `(tactic| mor1) => `(tactic| with_reducible refine Mortal.bind ?_ (fun _ => ?_))
macro_rules | `(tactic| mor1) => `(tactic| with_reducible exact Mortal.throw _)
macro_rules | `(tactic| mor1) => `(tactic| with_reducible exact Mortal.pure _)
macro_rules | `(tactic| mor1) => `(tactic| with_reducible exact mortal_slot _)
macro_rules | `(tactic| mor1) => `(tactic| with_reducible exact mortal_getCount _)
macro_rules | `(tactic| mor1) => `(tactic| with_reducible exact mortal_incrCount _)
macro_rules | `(tactic| mor1) => `(tactic| with_reducible exact mortal_decrCount _)
macro_rules | `(tactic| mor1) => `(tactic| with_reducible exact mortal_incrVec _)
macro_rules | `(tactic| mor1) => `(tactic| with_reducible exact mortal_vecIndex _ _)
macro_rules | `(tactic| mor1) => `(tactic| with_reducible exact mortal_setBorrow _ _)
macro_rules | `(tactic| mor1) => `(tactic| with_reducible exact mortal_rd)
macro_rules | `(tactic| mor1) => `(tactic| with_reducible refine mortal_finally ?_ ?_)
macro_rules | `(tactic| mor1) => `(tactic| with_reducible refine mortal_onPanic ?_ ?_)
macro_rules | `(tactic| mor1) => `(tactic| (refine Robust.mortal ?_; rob; done))
macro "mor" : tactic => `(tactic| repeat' (first | mor1 | (dsimp only; mor1)))

theorem mortal_nodeRc (a : Addr) : Mortal (nodeRc a : M α _) := by unfold nodeRc; mor
theorem mortal_intoRc (a : Addr) : Mortal (intoRc a : M α _) := by unfold intoRc; mor
theorem mortal_rcClone (r : RcRef) : Mortal (rcClone r : M α _) := by unfold rcClone; mor
theorem mortal_borrowMut (r : RcRef) : Mortal (borrowMut r : M α _) := by unfold borrowMut; mor
theorem mortal_borrowShared (r : RcRef) : Mortal (borrowShared r : M α _) := by unfold borrowShared; mor
theorem mortal_releaseMut (a : Addr) : Mortal (releaseMut a : M α _) := mortal_setBorrow _ _
theorem mortal_releaseShared (a : Addr) : Mortal (releaseShared a : M α _) := by unfold releaseShared; mor
theorem mortal_withMut {r : RcRef} {f : Addr → M α β} (hf : ∀ a, Mortal (f a)) : Mortal (withMut r f) :=
  (mortal_borrowMut r).bind fun a => mortal_finally (hf a) (mortal_releaseMut a)
theorem mortal_withShared {r : RcRef} {f : Addr → M α β} (hf : ∀ a, Mortal (f a)) : Mortal (withShared r f) :=
  (mortal_borrowShared r).bind fun a => mortal_finally (hf a) (mortal_releaseShared a)
theorem mortal_withMutArg {r : RcRef} {t : Addr} {f : Addr → M α β} (hf : ∀ a, Mortal (f a)) : Mortal (withMutArg r t f) := by
  intro X
  have := mortal_borrowMut r X
  simp only [withMutArg]
  cases e : borrowMut r X with
  | ok b Y => rw [e] at this; exact this.trans (mortal_finally (hf b) (mortal_releaseMut b) Y)
  | err x Y =>
    rw [e] at this
    cases x with
    | panic => exact Mortal.seq (r := (.err .panic Y : Res (Heap α) β)) this (rob_dropRoot t).mortal fun _ _ => rfl
    | ub => exact this
    | fuel => exact this
    | alloc => exact this
theorem mortal_guardShared (r : RcRef) : Mortal (guardShared r : M α _) :=
  (mortal_borrowShared r).bind fun a => (mortal_onPanic ((rob_dataRef a).mortal.bind fun _ => .pure _) (mortal_releaseShared a)).bind fun _ => .pure _
theorem mortal_guardMut (r : RcRef) : Mortal (guardMut r : M α _) :=
  (mortal_borrowMut r).bind fun a => (mortal_onPanic ((rob_dataRef a).mortal.bind fun _ => .pure _) (mortal_releaseMut a)).bind fun _ => .pure _

theorem mortal_optRc {c : M α (Option Addr)} {f : Addr → M α RcRef} (hc : Mortal c) (hf : ∀ a, Mortal (f a)) :
    Mortal (do match (← c) with
      | some c => do return some (← f c)
      | none => return none : M α (Option RcRef)) := by
  refine hc.bind fun o => ?_
  cases o with
  | none => exact .pure _
  | some c => exact (hf c).bind fun _ => .pure _

theorem mortal_popFrontRc (r : RcRef) : Mortal (popFrontRc r : M α _) := mortal_withMut fun a => mortal_optRc (rob_popFront a).mortal mortal_intoRc
theorem mortal_popBackRc (r : RcRef) : Mortal (popBackRc r : M α _) := mortal_withMut fun a => mortal_optRc (rob_popBack a).mortal mortal_intoRc
theorem mortal_frontRc (r : RcRef) : Mortal (frontRc r : M α _) := mortal_withShared fun a => mortal_optRc (rob_front a).mortal mortal_nodeRc
theorem mortal_backRc (r : RcRef) : Mortal (backRc r : M α _) := mortal_withShared fun a => mortal_optRc (rob_back a).mortal mortal_nodeRc
theorem mortal_parentRc (r : RcRef) : Mortal (parentRc r : M α _) := mortal_withShared fun a => mortal_optRc (rob_parent a).mortal mortal_nodeRc
theorem mortal_isRootRc (r : RcRef) : Mortal (isRootRc r : M α _) := mortal_withShared fun a => (rob_parent a).mortal.bind fun _ => .pure _
theorem mortal_iterRc (r : RcRef) : Mortal (iterRc r : M α _) := mortal_withShared fun a => by mor
theorem mortal_iterRcNext (it : RawIter) : Mortal (iterRcNext it : M α _) := by
  unfold iterRcNext
  refine (rob_rawNext it).mortal.bind fun q => ?_
  obtain ⟨o, it'⟩ := q
  cases o with
  | none => exact .pure _
  | some c => exact (mortal_nodeRc c).bind fun _ => .pure _

theorem mortal_dropInPlace (a : Addr) : Mortal (dropInPlace a : M α _) := by
  unfold dropInPlace
  refine mortal_rd.bind fun d => ?_
  intro X
  refine ⟨Nat.le_refl _, fun b _ hb => ?_⟩
  simp only [Res.heap, upd_apply] at hb
  split at hb
  · simp at hb
  · exact hb

theorem mortal_dropRc : ∀ (k : Nat), (∀ r, Mortal (dropRc k r : M α _)) ∧ ∀ r, Mortal (drainRc k r : M α _) := by
  intro k
  induction k with
  | zero => exact ⟨fun r => by simp only [dropRc]; exact .throw _, fun r => by simp only [drainRc]; exact .throw _⟩
  | succ k ih =>
    refine ⟨fun r => ?_, fun r => ?_⟩
    · cases r with
      | scattered a =>
        simp only [dropRc]
        refine (mortal_slot _).bind fun b => (mortal_getCount b).bind fun n => ?_
        split
        · exact (ih.2 _).bind fun _ => (rob_rcDrop b).mortal
        · exact (rob_rcDrop b).mortal
      | piled v i =>
        simp only [dropRc]
        refine (rob_vecNode v i).mortal.bind fun b => (mortal_decrCount b).bind fun n => ?_
        split
        · exact (ih.2 _).bind fun _ => (mortal_dropInPlace b).bind fun _ => (rob_decrRef v).mortal
        · exact (rob_decrRef v).mortal
    · simp only [drainRc]
      refine (mortal_popFrontRc r).bind fun o => ?_
      cases o with
      | none => exact .pure _
      | some c => exact (ih.1 c).bind fun _ => ih.2 r

theorem mortal_dropHandle (r : RcRef) : Mortal (dropHandle r : M α _) := fun X => (mortal_dropRc _).1 r X
theorem mortal_detachRc (r : RcRef) : Mortal (detachRc r : M α _) :=
  mortal_withMut fun a => (rob_detach a).mortal.bind fun c => (mortal_intoRc c).bind fun q => mortal_dropHandle q
theorem mortal_upgradeWeak (r : RcRef) : Mortal (upgradeWeak r : M α _) := by
  cases r with
  | scattered a =>
    intro X
    simp only [upgradeWeak]
    split
    · exact Mortal.seq (r := (.ok none X : Res (Heap α) (Option RcRef))) (.refl X) (mortal_incrCount a) fun _ _ => rfl
    · exact .refl X
  | piled v i =>
    simp only [upgradeWeak]
    refine (rob_vecNode v i).mortal.bind fun a => (mortal_getCount a).bind fun n => ?_
    split
    · exact .pure _
    · exact (mortal_incrCount a).bind fun _ => .pure _
theorem mortal_dropWeak (r : RcRef) : Mortal (dropWeak r : M α _) := by
  cases r with
  | scattered a => exact .pure _
  | piled v i => exact (rob_decrRef v).mortal
theorem mortal_intoTree (r : RcRef) : Mortal (intoTree r : M α _) := by
  refine mortal_onPanic ?_ (mortal_dropHandle r)
  unfold intoTreeRc
  refine (mortal_isRootRc r).bind fun b => ?_
  split
  · cases r with
    | scattered a => exact mortal_withMut fun a => (rob_treeFromNode a).mortal
    | piled v i => exact (rob_vecNode v i).mortal.bind fun a => (rob_treeFromNode a).mortal
  · exact .throw _

/-- The heap after a call. -/
def Outcome.rheap : Outcome (RMachine α) α → Option (Heap α)
  | .ok m _ => some m.heap
  | .panic m => some m.heap
  | _ => none

def FadesTo (X : Heap α) (r : Outcome (RMachine α) α) : Prop := ∀ Y, r.rheap = some Y → Fades X Y

section
variable {m : RMachine α}

theorem FadesTo.run {env : Var → Option Handle} {refs : Var → Option Ref} {c : M α β} {k : β → Heap α → Outcome (RMachine α) α} (hc : Mortal c)
    (hk : ∀ b Y Z, (k b Y).rheap = some Z → Z = Y) : FadesTo m.heap (m.run env refs c k) := by
  intro Y h
  have := hc m.heap
  simp only [RMachine.run] at h
  cases e : c m.heap with
  | ok b Z => rw [e] at this h; simp only at h; rw [hk b Z Y h]; exact this
  | err x Z =>
    rw [e] at this h
    cases x with
    | panic => simp only [Outcome.rheap, Option.some.injEq] at h; rw [← h]; exact this
    | ub => simp [Outcome.rheap] at h
    | fuel => simp [Outcome.rheap] at h
    | alloc => simp [Outcome.rheap] at h

theorem FadesTo.onRc {k : Var} {f : RcRef → Outcome (RMachine α) α} (h : ∀ r, FadesTo m.heap (f r)) : FadesTo m.heap (m.onRc k f) := by
  simp only [RMachine.onRc]; split
  · exact h _
  · intro Y e; simp [Outcome.rheap] at e
theorem FadesTo.takeTree {k : Var} {f : Addr → Outcome (RMachine α) α} (h : ∀ r, FadesTo m.heap (f r)) : FadesTo m.heap (m.takeTree k f) := by
  simp only [RMachine.takeTree]; split
  · exact h _
  · intro Y e; simp [Outcome.rheap] at e
theorem FadesTo.takeForest {k : Var} {f : Addr → Outcome (RMachine α) α} (h : ∀ r, FadesTo m.heap (f r)) : FadesTo m.heap (m.takeForest k f) := by
  simp only [RMachine.takeForest]; split
  · exact h _
  · intro Y e; simp [Outcome.rheap] at e
theorem FadesTo.call {k : Var} {c : RcRef → M α β} {o : β → Out α} (h : ∀ r, Mortal (c r)) : FadesTo m.heap (m.call k c o) :=
  .onRc fun r => .run (h r) fun b Y Z e => by simpa [Outcome.rheap] using e.symm
theorem FadesTo.consume {k y : Var} {c : RcRef → M α Unit} (h : ∀ r, Mortal (c r)) : FadesTo m.heap (m.consume k y c) :=
  .onRc fun r => .run (h r) fun b Y Z e => by simpa [Outcome.rheap] using e.symm
theorem rheap_ret {Y Z : Heap α} {refs : Var → Option Ref} {o : Option RcRef} (h : (m.retRc Y refs o).rheap = some Z) : Z = Y := by
  cases o <;> simpa [RMachine.retRc, RMachine.bindRef, Outcome.rheap] using h.symm
theorem rheap_bind {Y Z : Heap α} {refs : Var → Option Ref} {o : Ref} (h : (m.bindRef Y refs o).rheap = some Z) : Z = Y := by
  simpa [RMachine.bindRef, Outcome.rheap] using h.symm
theorem FadesTo.rejected : FadesTo m.heap (.rejected : Outcome (RMachine α) α) := by intro Y e; simp [Outcome.rheap] at e
theorem rheap_ok {m : RMachine α} {o : Out α} {Z : Heap α} (h : (Outcome.ok m o).rheap = some Z) : Z = m.heap := by
  simpa [Outcome.rheap] using h.symm

theorem rstep_gone (op : ROp α) : FadesTo m.heap (rstep m op) := by
  cases op with
  | excl op =>
    have A0 : HRel (⟨fun _ => false, m.heap, fun _ => 0, fun _ => none⟩ : Ctx α) m.heap m.heap := by
      refine ⟨?_, ?_, ?_, ?_, ?_, ?_, ?_, ?_, ?_, ?_, rfl, rfl, rfl, ?_, ?_, ?_, ?_, ?_, ?_, ?_, ?_, ?_⟩ <;> intros <;> simp_all
    have := step_rob A0 (fun a _ h => absurd rfl h) (env := m.env) (fr := m.fresh) op
    intro Y e
    simp only [rstep, RMachine.excl] at e
    cases h : step ⟨m.heap, m.env, m.fresh⟩ op with
    | ok m' o => rw [h] at this e; rw [rheap_ok e]; exact this.1.gone
    | panic m' => rw [h] at this e; simp only [Outcome.rheap, Option.some.injEq] at e; rw [← e]; exact this.1.gone
    | rejected => rw [h] at e; simp [Outcome.rheap] at e
    | bad => rw [h] at e; simp [Outcome.rheap] at e
  | fromTree x => exact .takeTree fun t => .run (mortal_intoRc t) fun _ _ _ e => rheap_ok e
  | clone k => exact .onRc fun r => .run (mortal_rcClone r) fun _ _ _ e => rheap_bind e
  | drop k =>
    simp only [rstep]
    split
    · split
      · exact .rejected
      · exact .run (mortal_dropHandle _) fun _ _ _ e => rheap_ok e
    · exact .run (mortal_dropWeak _) fun _ _ _ e => rheap_ok e
    · refine .run ?_ fun _ _ _ e => rheap_ok e
      split
      · exact mortal_releaseMut _
      · exact mortal_releaseShared _
    · intro Y e; rw [rheap_ok e]; exact .refl _
    · exact .rejected
  | isRoot k => exact .call mortal_isRootRc
  | data k => exact .call fun r => mortal_withShared fun a => (rob_dataRef a).mortal
  | degree k => exact .call fun r => mortal_withShared fun a => (rob_degree a).mortal
  | nodeCount k => exact .call fun r => mortal_withShared fun a => (rob_nodeCount a).mortal
  | hasNoChild k => exact .call fun r => mortal_withShared fun a => (rob_hasNoChild a).mortal
  | front k => exact .onRc fun r => .run (mortal_frontRc r) fun _ _ _ e => rheap_ret e
  | back k => exact .onRc fun r => .run (mortal_backRc r) fun _ _ _ e => rheap_ret e
  | parent k => exact .onRc fun r => .run (mortal_parentRc r) fun _ _ _ e => rheap_ret e
  | pushFront k y => exact .takeTree fun t => .consume fun r => mortal_withMutArg fun a => (rob_pushFront a t).mortal
  | pushBack k y => exact .takeTree fun t => .consume fun r => mortal_withMutArg fun a => (rob_pushBack a t).mortal
  | popFront k => exact .onRc fun r => .run (mortal_popFrontRc r) fun _ _ _ e => rheap_ret e
  | popBack k => exact .onRc fun r => .run (mortal_popBackRc r) fun _ _ _ e => rheap_ret e
  | prepend k y => exact .takeForest fun t => .consume fun r => mortal_withMutArg fun a => (rob_prepend a t).mortal
  | append k y => exact .takeForest fun t => .consume fun r => mortal_withMutArg fun a => (rob_append a t).mortal
  | insertPrevSib k y => exact .takeTree fun t => .consume fun r => mortal_withMutArg fun a => (rob_insertPrevSib a t).mortal
  | insertNextSib k y => exact .takeTree fun t => .consume fun r => mortal_withMutArg fun a => (rob_insertNextSib a t).mortal
  | detach k => exact .call mortal_detachRc
  | setData k d => exact .call fun r => mortal_withMut fun a => (rob_dataMutSet a d).mortal
  | borrow k => exact .onRc fun r => .run (mortal_guardShared r) fun _ _ _ e => rheap_bind e
  | borrowMut k => exact .onRc fun r => .run (mortal_guardMut r) fun _ _ _ e => rheap_bind e
  | guardRead g =>
    simp only [rstep]
    split
    · exact .run (rob_dataRef _).mortal fun _ _ _ e => rheap_ok e
    · exact .rejected
  | guardWrite g d =>
    simp only [rstep]
    split
    · exact .run (rob_dataMutSet _ _).mortal fun _ _ _ e => rheap_ok e
    · exact .rejected
  | iterRc k => exact .onRc fun r => .run (mortal_iterRc r) fun _ _ _ e => rheap_bind e
  | iterNext i =>
    simp only [rstep]
    split
    · exact .run (mortal_iterRcNext _) fun _ _ _ e => rheap_ret e
    · exact .rejected
  | iterClone i =>
    simp only [rstep]
    split
    · exact fun Y e => by rw [rheap_bind e]; exact .refl _
    · exact .rejected
  | iterLen i =>
    simp only [rstep]
    split
    · exact fun Y e => by rw [rheap_ok e]; exact .refl _
    · exact .rejected
  | downgrade k => exact .onRc fun r Y e => by rw [rheap_bind e]; exact .refl _
  | upgrade w =>
    simp only [rstep]
    split
    · exact .run (mortal_upgradeWeak _) fun _ _ _ e => rheap_ret e
    · exact .rejected
  | deepClone k f => exact .onRc fun r => .run (mortal_withShared fun a => (rob_mapBfs f a).mortal) fun _ _ _ e => rheap_ok e
  | intoTree k =>
    refine .onRc fun r => ?_
    split
    · exact .rejected
    · exact .run (mortal_intoTree r) fun _ _ _ e => rheap_ok e

end

/-- A node that has been part of some tree and is not in memory any more is not part of a tree later. -/
theorem si_gone {m m' : RMachine α} (hm : SI m) (hm' : SI m') (hg : Fades m.heap m'.heap) {a : Addr} (ha : a < m.heap.nextAddr) (hl : m.heap.live a = false) : ¬ m'.Shown a := by
  intro h
  obtain ⟨G, K, T, I, B⟩ := hm'
  have := (I.shown.mp h).1.1
  have h2 : m'.heap.live a = true := by rw [I.heap]; exact this
  rw [hg.live a ha h2] at hl; simp at hl

end Trees
