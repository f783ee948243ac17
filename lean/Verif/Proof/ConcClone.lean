import Verif.Proof.ConcMix
import Verif.Proof.CrashOps
import Verif.Proof.Foreign
/-
Copies of values that are shared by reference: the memory of the copy is made by the thread, the original is only read.
-/
namespace Trees
set_option linter.unusedSimpArgs false
set_option linter.unusedVariables false
variable {α β γ δ ι κ σ τ : Type}
open RTree
namespace Fine
variable {A : Alloc} {S : Heap α}

/-! ### What the iterators yield -/

theorem bindP (p : Prog α β) (f : β → Prog α γ) : (p >>= f) = p.bind f := rfl

theorem rb_run {p : Prog α β} (h : RB p) : (∃ b, p.run A S = .ok b S) ∨ ∃ e, p.run A S = .err e S ∧ e ≠ .alloc := by
  induction p with
  | ret b => exact .inl ⟨b, rfl⟩
  | fail e => exact .inr ⟨e, rfl, h⟩
  | acc a k ih =>
    rcases Acc.reads_same (A := A) h.1 S with ⟨x, e1⟩ | ⟨x, e1⟩
    · simp only [Prog.run, e1]; exact ih x (h.2.2 x)
    · refine .inr ⟨x, by simp only [Prog.run, e1]; rfl, ?_⟩
      rintro rfl
      have h1 := h.1
      revert e1
      cases a with
      | ptr f a => cases f <;> (cases l : S.live a <;> (simp only [Acc.run, Fld.get, Trees.getPrev, Trees.getNext, Trees.getHead, Trees.getTail, Trees.getUp, rd, l]; intro h; cases h))
      | size a => cases l : S.live a <;> (simp only [Acc.run, Trees.getSize, rd, l]; intro h; cases h)
      | data a => cases l : S.live a <;> (simp only [Acc.run, Trees.getData, rd, l]; intro h; cases h)
      | vecNode v i =>
        simp only [Acc.run, Trees.vecNode]
        split
        · intro h; cases h
        · split <;> (intro h; cases h)
      | getRef v => simp only [Acc.run]; split <;> (intro h; cases h)
      | bound => intro h; cases h
      | setPtr _ _ _ => cases h1
      | setSize _ _ => cases h1
      | setData _ _ => cases h1
      | make _ => cases h1
      | rcDrop _ => cases h1
      | newVec _ => cases h1
      | setRef _ _ => cases h1
      | freeVec _ => cases h1
      | logDrop _ => cases h1

/-- A program that reads, against the model. -/
theorem rb_model {p : Prog α β} (hp : RB p) {c : M α β} (hi : Imp A p c) {c' : M α γ} {P : Prop} {f : γ → β} (ha : ASim A P f c c') {H : Heap α} (r : ARel A S H)
    {b : γ} {H' : Heap α} (e : c' H = .ok b H') : p.run A S = .ok (f b) S := by
  have h1 := ha S H r
  rw [e, ← hi S] at h1
  rcases rb_run (A := A) (S := S) hp with ⟨x, e1⟩ | ⟨x, e1, hx⟩
  · rw [e1] at h1; rw [e1, h1.1]
  · rw [e1] at h1
    cases x <;> first | exact absurd rfl hx | exact h1.elim

/-- `nxt`, called again and again, yields `vs` and then `None`. -/
def Yields (S : Heap α) (A : Alloc) (nxt : σ → Prog α (Option (δ × Size) × σ)) : σ → List (δ × Size) → Prop
  | s, [] => ∃ s', (nxt s).run A S = .ok (none, s') S
  | s, v :: vs => ∃ s', (nxt s).run A S = .ok (some v, s') S ∧ Yields S A nxt s' vs

theorem yields_of_drive {nxt : σ → Prog α (Option (δ × Size) × σ)} (hr : ∀ s, RB (nxt s)) (vs : List (δ × Size)) : ∀ (s : σ) (t : σ),
    (driveVisits nxt (vs.length + 1) s).run A S = .ok (vs.map some ++ [none], t) S → Yields S A nxt s vs := by
  induction vs with
  | nil =>
    intro s t e
    simp only [driveVisits, List.length_nil, List.map_nil, List.nil_append, bindP, run_bind] at e
    rcases rb_run (A := A) (S := S) (hr s) with ⟨⟨o, s'⟩, e1⟩ | ⟨x, e1, -⟩
    · rw [e1] at e
      simp only [Res.bind, pure, Prog.bind, Prog.run, Res.ok.injEq, Prod.mk.injEq, List.cons.injEq, and_true] at e
      obtain ⟨rfl, -⟩ := e
      exact ⟨s', e1⟩
    · rw [e1] at e; cases e
  | cons v vs ih =>
    intro s t e
    rw [List.length_cons, driveVisits] at e
    simp only [bindP, run_bind] at e
    rcases rb_run (A := A) (S := S) (hr s) with ⟨⟨o, s'⟩, e1⟩ | ⟨x, e1, -⟩
    · rw [e1] at e
      simp only [Res.bind, bindP, run_bind] at e
      cases e2 : (driveVisits nxt (vs.length + 1) s').run A S with
      | err x S' => rw [e2] at e; cases e
      | ok q S' =>
        obtain ⟨os, t'⟩ := q
        rw [e2] at e
        simp only [pure, Prog.run, Res.ok.injEq, Prod.mk.injEq, List.map_cons, List.cons_append, List.cons.injEq] at e
        obtain ⟨⟨⟨rfl, rfl⟩, rfl⟩, rfl⟩ := e
        exact ⟨s', e1, ih s' _ e2⟩
    · rw [e1] at e; cases e

theorem yields_map (f : Nat → δ → γ) {nxt : σ → Prog α (Option (δ × Size) × σ)} (vs : List (δ × Size)) : ∀ (s : σ) (i : Nat),
    Yields S A nxt s vs → Yields S A (mapNext f nxt) (s, i) (vs.mapIdx fun j v => (f (i + j) v.1, v.2)) := by
  induction vs with
  | nil =>
    rintro s i ⟨s', e⟩
    exact ⟨(s', i), by simp only [mapNext, bindP, run_bind, e, Res.bind]; rfl⟩
  | cons v vs ih =>
    rintro s i ⟨s', e, h⟩
    rw [List.mapIdx_cons]
    refine ⟨(s', i + 1), by simp only [mapNext, bindP, run_bind, e, Res.bind]; rfl, ?_⟩
    have := ih s' (i + 1) h
    simpa only [Nat.add_assoc, Nat.add_comm 1] using this

/-! ### The copy -/

def dropVisits : List (α × Size) → Prog α Unit
  | [] => pure ()
  | v :: vs => do
    logDrop v.1
    dropVisits vs

/-- Compare `Trees.listNext`. -/
def listNext : List (α × Size) × Option Nat → Prog α (Option (α × Size) × (List (α × Size) × Option Nat))
  | ([], c) => return (none, ([], c))
  | (v :: vs, none) => return (some v, (vs, none))
  | (v :: vs, some 0) => do
    dropVisits (v :: vs)
    throw .panic
  | (v :: vs, some (k+1)) => return (some v, (vs, some k))

theorem imp_dropVisits (vs : List (α × Size)) : Imp A (dropVisits vs) (Trees.dropVisits vs) := by
  induction vs with
  | nil => exact Imp.pure _
  | cons v vs ih => exact Imp.bind (imp_logDrop _) fun _ => ih

theorem imp_listNext (s : List (α × Size) × Option Nat) : Imp A (listNext s) (Trees.listNext s) := by
  obtain ⟨vs, c⟩ := s
  cases vs with
  | nil => exact Imp.pure _
  | cons v vs =>
    cases c with
    | none => exact Imp.pure _
    | some k =>
      cases k with
      | zero => exact Imp.bind (imp_dropVisits _) fun _ => Imp.throw _
      | succ k => exact Imp.pure _

theorem al_dropVisits {P : Prop} (vs : List (α × Size)) : ASim A P id (Trees.dropVisits vs) (Trees.dropVisits vs) := by
  induction vs with
  | nil => exact .pure rfl
  | cons v vs ih => exact (al_logDrop _).bindId fun _ => ih

theorem al_listNext {P : Prop} (s : List (α × Size) × Option Nat) : ASim A P (fun r => (r.1, id r.2)) (Trees.listNext (id s)) (Trees.listNext s) := by
  obtain ⟨vs, c⟩ := s
  cases vs with
  | nil => exact .pure rfl
  | cons v vs =>
    cases c with
    | none => exact .pure rfl
    | some k =>
      cases k with
      | zero => exact (al_dropVisits _).bindId fun _ => .throw _
      | succ k => exact .pure rfl

/-- A tree made of a list of visits. -/
def ofVisits (vs : List (α × Size)) : Prog α Addr := treeFromBfs listNext (fun s => dropVisits s.1) (vs, none)
def forestOf (vs : List (α × Size)) (sz : Size) : Prog α Addr := forestFromBfs listNext (fun s => dropVisits s.1) (vs, none) sz

section
variable {nxt : σ → Prog α (Option (α × Size) × σ)} (hr : ∀ s, RB (nxt s))
include hr

theorem ins_fillLoop (v : Nat) : ∀ (k : Nat) (s : σ) (vs : List (α × Size)) (par child remains : Nat), Yields S A nxt s vs →
    Ins S A (fun _ c => c = ([], none)) (fillLoop nxt v k s par child remains) (fillLoop listNext v k (vs, none) par child remains) := by
  intro k
  induction k with
  | zero => intro s vs par child remains h; exact .fail _
  | succ k ih =>
    intro s vs par child remains h
    unfold fillLoop
    cases vs with
    | nil =>
      obtain ⟨s', e⟩ := h
      refine Ins.bind (Ins.of_rb (hr s) e (none, ([], none))) ?_
      rintro b c ⟨rfl, rfl⟩
      exact .ret rfl
    | cons w vs =>
      obtain ⟨s', e, h⟩ := h
      refine Ins.bind (Ins.of_rb (hr s) e (some w, (vs, none))) ?_
      rintro b c ⟨rfl, rfl⟩
      obtain ⟨d, sz⟩ := w
      dsimp only
      refine Ins.bind (Ins.refl (R := Eq) (fun _ => rfl) _) fun _ _ _ => ?_
      split
      · exact .fail _
      · split
        · refine Ins.bind (Ins.refl (R := Eq) (fun _ => rfl) _) ?_
          rintro q _ rfl
          exact ih s' vs _ _ _ h
        · exact ih s' vs _ _ _ h

theorem ins_treeFromBfs {drp : σ → Prog α Unit} (hd : ∀ s, drp s = .ret ()) {s : σ} {w : α × Size} {vs : List (α × Size)} (h : Yields S A nxt s (w :: vs)) :
    Ins S A Eq (treeFromBfs nxt drp s) (ofVisits (w :: vs)) := by
  unfold ofVisits treeFromBfs
  obtain ⟨s', e, h⟩ := h
  refine Ins.bind (Ins.of_rb (hr s) e (some w, (vs, none))) ?_
  rintro b c ⟨rfl, rfl⟩
  dsimp only
  refine Ins.bind (Ins.refl (R := Eq) (fun _ => rfl) _) ?_
  rintro q _ rfl
  obtain ⟨d, sz⟩ := q
  dsimp only
  refine Ins.bind (Ins.refl (R := Eq) (fun _ => rfl) _) ?_
  rintro v _ rfl
  refine Ins.bind (Ins.refl (R := Eq) (fun _ => rfl) _) ?_
  rintro _ _ rfl
  refine Ins.bind (ins_fillLoop hr v _ s' vs _ _ _ h) ?_
  rintro s2 _ rfl
  refine Ins.bind (Ins.refl (R := Eq) (fun _ => rfl) _) ?_
  rintro a _ rfl
  refine Ins.bind (Ins.refl (R := Eq) (fun _ => rfl) _) ?_
  rintro r _ rfl
  rw [hd s2]
  exact .ret rfl

theorem ins_forestFromBfs {drp : σ → Prog α Unit} (hd : ∀ s, drp s = .ret ()) {s : σ} {vs : List (α × Size)} (h : Yields S A nxt s vs) (sz : Size) :
    Ins S A Eq (forestFromBfs nxt drp s sz) (forestOf vs sz) := by
  unfold forestOf forestFromBfs
  refine Ins.bind (Ins.refl (R := Eq) (fun _ => rfl) _) ?_
  rintro v _ rfl
  refine Ins.bind (Ins.refl (R := Eq) (fun _ => rfl) _) ?_
  rintro _ _ rfl
  refine Ins.bind (ins_fillLoop hr v _ s vs _ _ _ h) ?_
  rintro s2 _ rfl
  refine Ins.bind (Ins.refl (R := Eq) (fun _ => rfl) _) ?_
  rintro a _ rfl
  rw [hd s2]
  exact .ret rfl
end

theorem dropIters_ref (l : List RawIter) : (dropIters refSrc l : Prog α Unit) = .ret () := by
  induction l with
  | nil => rfl
  | cons i l ih => exact ih

/-! ### The shared values -/

theorem rb_driveVisits {p : σ → Prog α (Option (δ × Size) × σ)} (h1 : ∀ s, RB (p s)) (k : Nat) (s : σ) : RB (driveVisits p k s) := by
  induction k generalizing s with
  | zero => exact RB.pure _
  | succ k ih =>
    unfold driveVisits
    exact RB.bind (h1 s) fun x => RB.bind (ih x.2) fun y => RB.pure _

theorem calls_all (vs : List (α × Size)) : (List.range (vs.length + 1)).map (fun i => vs[i]?) = vs.map some ++ [none] := by
  rw [List.range_succ, List.map_append]
  congr 1
  · apply List.ext_getElem <;> simp
  · simp

section
variable {mS : Machine α} {KS : Addr → List Addr} (rS : ARel A S mS.heap) (MS : MInv mS KS)
include rS MS

theorem locate_shared {a : Addr} (ha : mS.heap.Used a) (p : Path) :
    (locate (A.addr a) p : Prog α _).run A S = .ok ((resolve KS a p).map A.addr) S :=
  rb_model (rb_locate p _) (imp_locate _ _) (al_locate (P := False) p a) rS (locate_ok MS.inv ha)

theorem yields_bfs {n : Addr} {t : RTree α} (hn : mS.heap.Used n) (hd : Den mS.heap.val KS n t) :
    Yields S A (splittedNext refSrc) (bfsStart (A.addr n)) (visits [t]) := by
  obtain ⟨s', e⟩ := refDrive_ok MS (s := bfsStart n) (ts := [t]) (.cons ⟨[n], once_at hn, by simpa using hn, by simpa using hd⟩ .nil) ((visits [t]).length + 1)
  rw [calls_all] at e
  have h1 := rb_model (rb_driveVisits rb_splittedNext ((visits [t]).length + 1) (bfsStart (A.addr n))) (imp_driveVisits (imp_splittedNext simp_refSrc) _ _)
    (al_driveVisits (fs := List.map (RawIter.ren A)) al_refSrc.splittedNext ((visits [t]).length + 1) (bfsStart n)) rS e
  simp only [map_renVisit_id] at h1
  exact yields_of_drive rb_splittedNext _ _ _ h1

theorem yields_kids {n : Addr} {ts : List (RTree α)} (hn : mS.heap.Used n) (hd : DenL mS.heap.val KS (KS n) ts) :
    ∃ s, (bfsChildrenStart (A.addr n)).run A S = .ok s S ∧ (getSize (A.addr n)).run A S = .ok ⟨ts.length, countL ts⟩ S ∧
      Yields S A (splittedNext refSrc) s (visits ts) := by
  obtain ⟨it, e0, hit, -⟩ := iter_den MS.inv hn hd
  have e1 : Trees.bfsChildrenStart n mS.heap = .ok [it] mS.heap := by simp [Trees.bfsChildrenStart, e0]
  have h1 := rb_model (p := bfsChildrenStart (A.addr n)) (RB.bind (rb_iter _) fun _ => RB.pure _) (imp_bfsChildrenStart _) (al_bfsChildrenStart n) rS e1
  have h2 := rb_model (p := getSize (A.addr n)) (RB.access rfl (by simp)) (imp_getSize _) (al_getSize (P := False) n) rS (getSize_ok hn.1)
  refine ⟨_, h1, ?_, ?_⟩
  · rw [h2, MS.inv.sz_den hn hd]; rfl
  · obtain ⟨s', e⟩ := refDrive_ok MS (s := [it]) (ts := ts) (.cons hit .nil) ((visits ts).length + 1)
    rw [calls_all] at e
    have h1 := rb_model (rb_driveVisits rb_splittedNext ((visits ts).length + 1) ([it].map (RawIter.ren A))) (imp_driveVisits (imp_splittedNext simp_refSrc) _ _)
      (al_driveVisits (fs := List.map (RawIter.ren A)) al_refSrc.splittedNext ((visits ts).length + 1) [it]) rS e
    simp only [map_renVisit_id] at h1
    exact yields_of_drive rb_splittedNext _ _ _ h1

end

/-! ### Calls against the thread's own memory -/

/-- What a call does to the memory of the thread: it does not fail, and the model's invariant holds again. -/
def Fit (A : Alloc) (v0 : Vars) (p : Prog α (Outcome Vars α)) : Prop :=
  ∀ Q mQ KQ, AMRel A (v0.at Q) mQ → MInv mQ KQ → Good A (Q, p) ∧ ∀ r Q', p.run A Q = .ok r Q' →
    match r with
    | .ok v1 _ => ∃ m1 K1, AMRel A (v1.at Q') m1 ∧ MInv m1 K1
    | .panic v1 => ∃ m1 K1, AMRel A (v1.at Q') m1 ∧ MInv m1 K1
    | .rejected => Q' = Q
    | .bad => False

theorem fit_ret {v0 : Vars} (o : Trees.Out α) : Fit A v0 (.ret (.ok v0 o)) := by
  intro Q mQ KQ r M
  refine ⟨fun e h' he => (by cases he), fun x Q' he => ?_⟩
  cases he
  exact ⟨mQ, KQ, r, M⟩

theorem fit_rejected {v0 : Vars} : Fit A v0 (.ret (.rejected : Outcome Vars α)) := by
  intro Q mQ KQ r M
  refine ⟨fun e h' he => (by cases he), fun x Q' he => ?_⟩
  cases he; rfl

theorem fit_step (v0 : Vars) (op : Op α) : Fit A v0 (step v0 op) := by
  intro Q mQ KQ r M
  have hs := stepA_sim r op
  have hb := step_not_bad M op
  have hr := step_run (A := A) v0 Q op
  have hm := step_minv M op
  constructor
  · intro e h' he
    dsimp only at he
    rw [he] at hr
    cases e with
    | alloc => rfl
    | ub =>
      simp only [SRel] at hr
      rw [hr] at hs
      cases e' : Trees.step mQ op with
      | bad => exact absurd e' hb
      | _ => rw [e'] at hs; exact hs.elim
    | panic => exact hr.elim
    | fuel => exact hr.elim
  · intro q Q' he
    rw [he] at hr
    cases q with
    | ok v1 o =>
      simp only [SRel] at hr
      rw [hr] at hs
      cases e' : Trees.step mQ op with
      | bad => exact absurd e' hb
      | ok m1 o' =>
        rw [e'] at hs
        obtain ⟨K1, M1⟩ := hm.1 _ _ e'
        exact ⟨m1, K1, hs.1, M1⟩
      | panic _ => rw [e'] at hs; exact hs.elim
      | rejected => rw [e'] at hs; exact hs.elim
    | panic v1 =>
      simp only [SRel] at hr
      rw [hr] at hs
      cases e' : Trees.step mQ op with
      | bad => exact absurd e' hb
      | panic m1 =>
        rw [e'] at hs
        obtain ⟨K1, M1⟩ := hm.2 _ e'
        exact ⟨m1, K1, hs, M1⟩
      | ok _ _ => rw [e'] at hs; exact hs.elim
      | rejected => rw [e'] at hs; exact hs.elim
    | rejected => simp only [SRel] at hr; exact hr.1
    | bad =>
      simp only [SRel] at hr
      rw [hr] at hs
      cases e' : Trees.step mQ op with
      | bad => exact absurd e' hb
      | _ => rw [e'] at hs; exact hs.elim

/-- A program that makes a value. -/
theorem fit_make {v0 : Vars} {p : Prog α Addr} {c : M α Addr} {c' : M α Addr} {mk : Addr → Handle} (hmk : ∀ a, (mk a).ren A = mk (A.addr a)) (hi : Imp A p c)
    (ha : ASim A (¬ A.Bump) A.addr c c')
    (hc : ∀ (mQ : Machine α) KQ, MInv mQ KQ → ∃ a h', c' mQ.heap = .ok a h' ∧ ∃ K1, MInv ⟨h', upd mQ.env mQ.fresh (some (mk a)), mQ.fresh + 1⟩ K1) :
    Fit A v0 (v0.run v0.env p fun a => v0.retVar v0.env (mk a)) := by
  intro Q mQ KQ r M
  obtain ⟨a, h', e, K1, M1⟩ := hc mQ KQ M
  have h1 := ha Q mQ.heap r.heap
  rw [e, ← hi Q] at h1
  cases e1 : p.run A Q with
  | err x Q1 =>
    rw [e1] at h1
    cases x <;> first | exact h1.elim | skip
    have e2 : (v0.run v0.env p fun a => v0.retVar v0.env (mk a)).run A Q = .err .alloc Q1 := by
      unfold Vars.run; rcases run_catch_err (f := fun a => v0.retVar v0.env (mk a)) (g := fun e => match e with
        | .panic => .ret (.panic ⟨v0.env, v0.fresh⟩)
        | .alloc => .fail .alloc
        | _ => .ret .bad) e1 with h | ⟨-, h⟩ <;> exact h
    refine ⟨fun e h he => ?_, fun q Q' he => ?_⟩
    · dsimp only at he; rw [e2] at he; cases he; rfl
    · rw [e2] at he; cases he
  | ok b Q1 =>
    rw [e1] at h1
    obtain ⟨rfl, R1⟩ := h1
    have e2 : (v0.run v0.env p fun a => v0.retVar v0.env (mk a)).run A Q = .ok (.ok ⟨upd v0.env v0.fresh (some (mk (A.addr a))), v0.fresh + 1⟩ (.var v0.fresh)) Q1 := by
      unfold Vars.run; rw [run_catch_ok e1]; rfl
    refine ⟨fun e h he => ?_, fun q Q' he => ?_⟩
    · dsimp only at he; rw [e2] at he; cases he
    · rw [e2] at he; cases he
      refine ⟨⟨h', upd mQ.env mQ.fresh (some (mk a)), mQ.fresh + 1⟩, K1, ⟨R1, ?_, ?_⟩, M1⟩
      · have := r.env
        have hf := r.fresh
        dsimp only [Vars.at] at this hf ⊢
        funext y
        rw [this, hf]
        simp only [upd_apply, renEnv]
        split
        · simp [hmk]
        · rfl
      · have hf := r.fresh
        dsimp only [Vars.at] at hf ⊢
        rw [hf]

theorem fit_tree (v0 : Vars) (t : RTree α) : Fit A v0 (v0.run v0.env (ofVisits (visits [t])) fun a => v0.retVar v0.env (.tree a)) := by
  have ha := al_treeFromBfs (A := A) (fs := id) (nxt := Trees.listNext (α := α)) (nxt' := Trees.listNext) (drp := fun s => Trees.dropVisits s.1) (drp' := fun s => Trees.dropVisits s.1) al_listNext (fun s => al_dropVisits s.1) (visits [t], none)
  refine fit_make (mk := .tree) (fun _ => rfl) (imp_treeFromBfs imp_listNext (fun s => imp_dropVisits s.1) _) ha ?_
  intro mQ KQ M
  have h := ofVisits_sim M M.abs_store t none
  obtain ⟨a, h', e, s⟩ := h
  rw [visitList_eq] at e
  obtain ⟨-, K1, M1, -⟩ := s
  exact ⟨a, h', e, K1, M1⟩

theorem fit_forest (v0 : Vars) (ts : List (RTree α)) : Fit A v0 (v0.run v0.env (forestOf (visits ts) ⟨ts.length, countL ts⟩) fun a => v0.retVar v0.env (.forest a)) := by
  have ha := al_forestFromBfs (A := A) (fs := id) (nxt := Trees.listNext (α := α)) (nxt' := Trees.listNext) (drp := fun s => Trees.dropVisits s.1) (drp' := fun s => Trees.dropVisits s.1) al_listNext (fun s => al_dropVisits s.1) (visits ts, none) ⟨ts.length, countL ts⟩
  refine fit_make (mk := .forest) (fun _ => rfl) (imp_forestFromBfs imp_listNext (fun s => imp_dropVisits s.1) _ _) ha ?_
  intro mQ KQ M
  have h := ofVisitsForest_sim M M.abs_store ts none
  obtain ⟨a, h', e, s⟩ := h
  rw [visitList_eq] at e
  obtain ⟨-, K1, M1, -⟩ := s
  exact ⟨a, h', e, K1, M1⟩

/-! ### Copies -/

section
variable {mS : Machine α} {KS : Addr → List Addr} (rS : ARel A S mS.heap) (MS : MInv mS KS) {sh : Var → Prop} {w : Var → Option Handle} {v v0 : Vars}
include rS MS

theorem used_resolve {hd : Handle} {x : Var} (hx : mS.env x = some hd) {p : Path} {n : Addr} (h : resolve KS hd.addr p = some n) : mS.heap.Used n :=
  reach_used MS (MS.hnd x hd hx).used (resolve_reach h)

theorem ins_mapBfs (o : Over sh w v v0) (n : Addr) (hn : mS.heap.Used n) (hv : mS.heap.IsVal n) (f : Nat → α → α) :
    ∃ g, Ins S A (OutRel sh w) (v.run v.env (mapBfs f (A.addr n)) fun a => v.retVar v.env (.tree a)) g ∧ Fit A v0 g := by
  obtain ⟨t, hd⟩ : ∃ t, Den mS.heap.val KS n t := by
    obtain ⟨ts, h1⟩ := MS.inv.exists_den mS.heap.val (fun a c hc => MS.kv a c hc) hn
    obtain ⟨d, h2⟩ := Option.isSome_iff_exists.mp hv
    exact ⟨.node d ts, by rw [Den_node]; exact ⟨h2, h1⟩⟩
  have hy := yields_map f _ _ 0 (yields_bfs rS MS hn hd)
  have e : ((visits [t]).mapIdx fun j v => (f (0 + j) v.1, v.2)) = visits [updLevel f t] := by
    rw [visits_updLevel]; simp only [Nat.zero_add]
  rw [e] at hy
  refine ⟨_, ?_, fit_tree v0 (updLevel f t)⟩
  cases hvs : visits [updLevel f t] with
  | nil =>
    have := congrArg List.length hvs
    rw [length_visits] at this
    cases h : updLevel f t; rw [h] at this; simp at this
  | cons q vs =>
    rw [hvs] at hy
    refine Ins.vrun (ins_treeFromBfs (rb_mapNext f) (fun s => dropIters_ref s.1) hy) o ?_
    rintro a _ rfl
    exact ins_retVar o _

theorem ins_mapBfsForest (o : Over sh w v v0) (n : Addr) (hn : mS.heap.Used n) (f : Nat → α → α) :
    ∃ g, Ins S A (OutRel sh w) (v.run v.env (mapBfsForest f (A.addr n)) fun a => v.retVar v.env (.forest a)) g ∧ Fit A v0 g := by
  obtain ⟨ts, hd⟩ := MS.inv.exists_den mS.heap.val (fun a c hc => MS.kv a c hc) hn
  obtain ⟨s, e1, e2, hy⟩ := yields_kids rS MS hn hd
  have hy := yields_map f _ _ 0 hy
  have e : ((visits ts).mapIdx fun j v => (f (0 + j) v.1, v.2)) = visits (updLevelL f ts) := by
    rw [visits_updLevelL]; simp only [Nat.zero_add]
  rw [e] at hy
  refine ⟨_, ?_, fit_forest v0 (updLevelL f ts)⟩
  rw [updLevelL_length, countL_updLevelL]
  refine Ins.vrun (R := Eq) ?_ o ?_
  · unfold mapBfsForest
    have : Ins S A Eq ((bfsChildrenStart (A.addr n)).bind fun s => (getSize (A.addr n)).bind fun sz =>
        forestFromBfs (mapNext f (splittedNext refSrc)) (fun s => dropIters refSrc s.1) (s, 0) sz)
        ((Prog.ret ()).bind fun _ => (Prog.ret ()).bind fun _ => forestOf (visits (updLevelL f ts)) ⟨ts.length, countL ts⟩) := by
      refine Ins.bind (Ins.of_rb (RB.bind (rb_iter _) fun _ => RB.pure _) e1 ()) ?_
      rintro _ _ ⟨rfl, -⟩
      refine Ins.bind (Ins.of_rb (RB.access rfl (by simp)) e2 ()) ?_
      rintro _ _ ⟨rfl, -⟩
      exact ins_forestFromBfs (rb_mapNext f) (fun s => dropIters_ref s.1) hy _
    exact this
  · rintro a _ rfl
    exact ins_retVar o _

/-- A call on a node of a shared value. -/
theorem ins_locate (o : Over sh w v v0) {x : Var} {hd : Handle} (hx : mS.env x = some hd) (p : Path) {k : Option Addr → Prog α (Outcome Vars α)}
    (h0 : k none = .ret (.ok v .absent))
    (hk : ∀ n, resolve KS hd.addr p = some n → ∃ g, Ins S A (OutRel sh w) (k (some (A.addr n))) g ∧ Fit A v0 g) :
    ∃ g, Ins S A (OutRel sh w) (v.run v.env (locate (A.addr hd.addr) p) k) g ∧ Fit A v0 g := by
  have e := locate_shared rS MS (MS.hnd x hd hx).used p
  have key : ∀ g, Ins S A (OutRel sh w) (k ((resolve KS hd.addr p).map A.addr)) g →
      Ins S A (OutRel sh w) (v.run v.env (locate (A.addr hd.addr) p) k) (v0.run v0.env (.ret ()) fun _ => g) := by
    intro g hg
    refine Ins.vrun (Ins.of_rb (rb_locate p _) e ()) o ?_
    rintro _ _ ⟨rfl, -⟩
    exact hg
  cases hr : resolve KS hd.addr p with
  | none =>
    rw [hr] at key
    exact ⟨_, key (.ret (.ok v0 .absent)) (by rw [Option.map_none, h0]; exact .ret ⟨o, rfl⟩), fit_ret _⟩
  | some n =>
    rw [hr] at key
    obtain ⟨g, h1, h2⟩ := hk n hr
    exact ⟨_, key g h1, h2⟩

theorem ins_none : ∃ g, Ins S A (OutRel (α := α) sh w) (.ret .rejected) g ∧ Fit A v0 g :=
  ⟨.ret .rejected, .ret trivial, fit_rejected⟩

theorem isVal_resolve {a n : Addr} {q : Path} {i : Nat} (h : resolve KS a (q ++ [i]) = some n) : mS.heap.IsVal n := by
  rw [resolve_append] at h
  cases e : resolve KS a q with
  | none => rw [e] at h; cases h
  | some b =>
    rw [e] at h
    simp only [Option.bind_some, resolve] at h
    cases e2 : (KS b)[i]? with
    | none => rw [e2] at h; cases h
    | some c =>
      rw [e2] at h
      cases h
      exact MS.kv b _ (List.mem_of_getElem? e2)

/-- A call that copies a shared value. -/
theorem ins_copy (o : Over sh w v v0) (hw : ∀ x, sh x → w x = (mS.env x).map (Handle.ren A)) (op : Op α) (h1 : op.byRef = true) (h2 : op.reading = false)
    (hx : ∃ x ∈ op.vars, sh x) : ∃ g, Ins S A (OutRel sh w) (step v op) g ∧ Fit A v0 g := by
  cases op <;> first | cases h1; done | cases h2; done | skip
  case mapBfs x l f =>
    have hx : sh x := by obtain ⟨y, h3, h4⟩ := hx; simp only [Op.vars, List.mem_singleton] at h3; exact h3 ▸ h4
    simp only [step, Vars.onNode]
    rw [o.theirs x hx, hw x hx]
    cases hd : mS.env x with
    | none => exact ins_none rS MS
    | some hd' =>
      simp only [Option.map_some]
      have H := MS.hnd x hd' hd
      rw [Handle.ren_isIter]
      split
      · exact ins_none rS MS
      · cases l with
        | root =>
          cases hd' with
          | tree r => exact ins_mapBfs rS MS o r H.used H.kind f
          | forest r => exact ins_none rS MS
          | iter r => exact ins_none rS MS
        | child q i =>
          rw [Handle.ren_addr]
          exact ins_locate rS MS o hd _ rfl fun n hn => ins_mapBfs rS MS o n (used_resolve rS MS hd hn) (isVal_resolve rS MS hn) f
  case mapBfsForest x p f =>
    have hx : sh x := by obtain ⟨y, h3, h4⟩ := hx; simp only [Op.vars, List.mem_singleton] at h3; exact h3 ▸ h4
    simp only [step, Vars.onKids]
    rw [o.theirs x hx, hw x hx]
    cases hd : mS.env x with
    | none => exact ins_none rS MS
    | some hd' =>
      simp only [Option.map_some]
      rw [Handle.ren_isIter]
      split
      · exact ins_none rS MS
      · rw [Handle.ren_addr]
        exact ins_locate rS MS o hd _ rfl fun n hn => ins_mapBfsForest rS MS o n (used_resolve rS MS hd hn) f

end

end Fine
end Trees
