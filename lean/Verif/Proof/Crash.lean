import Verif.Proof.Step
import Verif.Proof.RobustStep
import Verif.Model.Crash
/-
Panics of user code while a block is being filled.
-/
namespace Trees
set_option linter.unusedSimpArgs false
set_option linter.unusedVariables false
variable {α β γ σ ι κ δ : Type}
open RTree

/-! ### Leaked memory -/

/-- Further nodes and blocks, but no further references to what is there. -/
def Ctx.Apart (ρ : Ctx α) : Prop := ∀ a, ρ.e a = 0

theorem Ctx.Apart.fin {ρ : Ctx α} (h : ρ.Apart) (X : Heap α) : ρ.Fin X := fun a _ he => absurd (h a) he

/-- `H` is `X` plus memory that nothing refers to. -/
inductive Leak : Heap α → Heap α → Prop
  | refl (X : Heap α) : Leak X X
  | more {ρ : Ctx α} {X Y H : Heap α} : ρ.Apart → HRel ρ X Y → Leak Y H → Leak X H

theorem Leak.trans {X Y H : Heap α} (h1 : Leak X Y) (h2 : Leak Y H) : Leak X H := by
  induction h1 with
  | refl => exact h2
  | more a r _ ih => exact .more a r (ih h2)

theorem Leak.log {X H : Heap α} (h : Leak X H) : H.log = X.log := by
  induction h with
  | refl => rfl
  | more a r _ ih => rw [ih, r.log]

theorem HRel.of_join {P : Addr → Bool} {v base n : Nat} {hs F : Heap α} (A : Avoid P (blkQ v) hs) (hn : 0 < n)
    (hv : F.vec v = some ⟨base, n, n⟩) :
    HRel ⟨P, F, fun _ => 0, fun w => if blkQ v w then F.vec w else none⟩ hs (join P (blkQ v) hs F) := by
  have hQ : ∀ w, blkQ v w = true → w = v := fun w hw => by simpa [blkQ] using hw
  refine ⟨fun a => rfl, fun a => rfl, fun a => rfl, fun a => rfl, fun a => rfl, fun a => rfl, fun a => rfl, fun a => rfl, ?_, ?_,
    rfl, rfl, rfl, ?_, ?_, ?_, A.live, A.addr, ?_, ?_, ?_, ?_⟩
  · intro a; simp only [join, pick]; split <;> simp
  · intro w
    simp only [join]
    split
    · rename_i h; rw [A.vec w h]; rfl
    · simp
  · intro a ha; replace ha : P a = true := ha; simp [join, ha]
  · intro a ha; simp [join, A.notP ha, ha]
  · intro a ha hl; replace ha : P a = false := ha; left; simpa [join, ha] using hl
  · intro a h; exact absurd rfl h
  · intro w b hb
    simp only at hb
    split at hb
    · rename_i hw
      have := hQ w hw
      subst this
      rw [hv, Option.some.injEq] at hb
      subst hb
      exact ⟨A.vecN w hw, hn⟩
    · simp at hb
  · intro w x y hx hy
    simp only at hy
    split at hy
    · rename_i hw; rw [A.vec w hw] at hx; simp at hx
    · simp at hy
  · intro w x hx _ a ha; exact A.blk w x hx a ha

/-- The same outcome, with leaked memory. -/
def OLeak : Outcome (Machine α) α → Outcome (Machine α) α → Prop
  | .ok m o, r => ∃ H, r = .ok ⟨H, m.env, m.fresh⟩ o ∧ Leak m.heap H
  | .panic m, r => ∃ H, r = .panic ⟨H, m.env, m.fresh⟩ ∧ Leak m.heap H
  | .rejected, r => r = .rejected
  | .bad, _ => True

theorem ORel.oleak {ρ : Ctx α} {X : Heap α} {r r' : Outcome (Machine α) α} (hρ : ρ.Apart) (h : ORel ρ X r r') : OLeak r r' := by
  cases r with
  | ok m o => obtain ⟨-, h⟩ := h; obtain ⟨H, e, hr⟩ := h (hρ.fin _); exact ⟨H, e, .more hρ hr (.refl _)⟩
  | panic m => obtain ⟨-, h⟩ := h; obtain ⟨H, e, hr⟩ := h (hρ.fin _); exact ⟨H, e, .more hρ hr (.refl _)⟩
  | rejected => exact h
  | bad => trivial

theorem OLeak.trans {r1 r2 r3 : Outcome (Machine α) α} (h1 : OLeak r1 r2) (h2 : OLeak r2 r3) : OLeak r1 r3 := by
  cases r1 with
  | ok m o =>
    obtain ⟨H, rfl, l⟩ := h1
    obtain ⟨H', rfl, l'⟩ := h2
    exact ⟨H', rfl, l.trans l'⟩
  | panic m =>
    obtain ⟨H, rfl, l⟩ := h1
    obtain ⟨H', rfl, l'⟩ := h2
    exact ⟨H', rfl, l.trans l'⟩
  | rejected => cases h1; exact h2
  | bad => trivial

theorem OLeak.refl (r : Outcome (Machine α) α) : OLeak r r := by
  cases r with
  | ok m o => exact ⟨_, rfl, .refl _⟩
  | panic m => exact ⟨_, rfl, .refl _⟩
  | rejected => rfl
  | bad => trivial

/-! ### Robustness of the new code -/

theorem rob_mapNextC {f : Nat → δ → Option κ} {nxt : σ → M α (Option (δ × Size) × σ)} (hn : ∀ s, Robust (nxt s))
    {unw : δ → σ → M α Unit} (hu : ∀ d s, Robust (unw d s)) (s : σ × Nat) : Robust (mapNextC f nxt unw s) := by
  unfold mapNextC
  refine (hn s.1).bind fun o => ?_
  dsimp only
  split
  · split
    · exact .pure _
    · exact (hu _ _).bind fun _ => .throw _
  · exact .pure _

theorem rob_refUnwind (d : α) (s : List RawIter) : Robust (refUnwind d s) := rob_refSrc.dropIters _
theorem rob_ownUnwind (d : α) (s : List Addr) : Robust (ownUnwind d s) := (rob_logDrop d).bind fun _ => rob_ownSrc.dropIters _

theorem rob_mapBfsC (f : Nat → α → Option α) (a : Addr) : Robust (mapBfsC f a) :=
  rob_treeFromBfs (fun s => rob_mapNextC rob_refSrc.splittedNext rob_refUnwind s) (fun _ => rob_refSrc.dropIters _) _
theorem rob_mapBfsForestC (f : Nat → α → Option α) (a : Addr) : Robust (mapBfsForestC f a) := by
  unfold mapBfsForestC
  refine (rob_bfsChildrenStart a).bind fun _ => (rob_getSize a).bind fun _ => ?_
  exact rob_forestFromBfs (fun s => rob_mapNextC rob_refSrc.splittedNext rob_refUnwind s) (fun _ => rob_refSrc.dropIters _) _ _
theorem rob_rebuildTreeC (f : Nat → α → Option α) (a : Addr) : Robust (rebuildTreeC f a) :=
  (rob_treeIntoIter a).bind fun _ => rob_treeFromBfs (fun s => rob_mapNextC rob_ownSrc.splittedNext rob_ownUnwind s)
    (fun _ => rob_ownSrc.dropIters _) _
theorem rob_rebuildForestC (f : Nat → α → Option α) (a : Addr) : Robust (rebuildForestC f a) :=
  (rob_getSize a).bind fun _ => rob_forestFromBfs (fun s => rob_mapNextC rob_ownSrc.splittedNext rob_ownUnwind s)
    (fun _ => rob_ownSrc.dropIters _) _ _

theorem rob_dropVisits : ∀ vs : List (α × Size), Robust (dropVisits vs)
  | [] => .pure _
  | v :: vs => (rob_logDrop _).bind fun _ => rob_dropVisits vs
theorem rob_listNext (s : List (α × Size) × Option Nat) : Robust (listNext s) := by
  match s with
  | ([], c) => exact .pure _
  | (v :: vs, none) => exact .pure _
  | (v :: vs, some 0) => exact (rob_dropVisits _).bind fun _ => .throw _
  | (v :: vs, some (k+1)) => exact .pure _

theorem rob_logDropP (n : Nat) (d : α) : Robust (logDropP n d) := by
  intro ρ X H A
  have e : H.log.length = X.log.length := by rw [A.log]
  simp only [logDropP, logDrop, Res.bind_ok, e]
  split
  · exact ⟨.of_same rfl rfl rfl rfl, fun _ => ⟨_, rfl, { A with log := by simp [A.log] }⟩⟩
  · exact ⟨.of_same rfl rfl rfl rfl, fun _ => ⟨_, rfl, { A with log := by simp [A.log] }⟩⟩
macro_rules | `(tactic| rob1) => `(tactic| with_reducible exact rob_logDropP _ _)
theorem rob_dropNodeP (n : Nat) (a : Addr) : Robust (dropNodeP n a : M α _) := by unfold dropNodeP; rob
macro_rules | `(tactic| rob1) => `(tactic| with_reducible exact rob_dropNodeP _ _)
theorem rob_dropLoopP (n : Nat) : ∀ (k : Nat) (a : Addr), Robust (dropLoopP n k a : M α _) := by
  intro k
  induction k with
  | zero => intro a; unfold dropLoopP; rob
  | succ k ih => intro a; unfold dropLoopP; rob <;> exact ih _
theorem rob_dropRootP (n : Nat) (a : Addr) : Robust (dropRootP n a : M α _) :=
  Robust.fuelled_size (f := fun s => dropLoopP n (s.descendants + 1) a) (fun n => rob_dropLoopP _ _ _) (by
    intro n h hl
    exact ⟨.ub, h, by simp [dropLoopP, popFront_dead hl], by simp⟩)
macro_rules | `(tactic| rob1) => `(tactic| with_reducible exact rob_dropRootP _ _)
theorem rob_intoIterDropLoopP (n : Nat) : ∀ (k : Nat) (a : Addr), Robust (intoIterDropLoopP n k a : M α _) := by
  intro k
  induction k with
  | zero => intro a; unfold intoIterDropLoopP; rob
  | succ k ih => intro a; unfold intoIterDropLoopP; rob; exact ih _
theorem rob_thenFields {c fin : M α Unit} (hc : Robust c) (hf : Robust fin) : Robust (thenFields c fin) := by
  intro ρ X H A
  obtain ⟨m1, r1⟩ := hc ρ X H A
  have triv : ∀ s : Heap α, HRel (⟨fun _ => false, s, fun _ => 0, fun _ => none⟩ : Ctx α) s s := by
    intro s
    refine ⟨?_, ?_, ?_, ?_, ?_, ?_, ?_, ?_, ?_, ?_, rfl, rfl, rfl, ?_, ?_, ?_, ?_, ?_, ?_, ?_, ?_, ?_⟩ <;> intros <;> simp_all
  have go : ∀ {e : Bool} {s : Heap α}, c X = (if e then .err .panic s else .ok () s) → Mono X s → (ρ.Fin s → ∃ H', c H = (if e then .err .panic H' else .ok () H') ∧ HRel ρ s H') →
      Mono X (thenFields c fin X).heap ∧ RRel ρ (thenFields c fin X) (thenFields c fin H) := by
    intro e s e1 m1 r1
    have m2 := (hf _ s s (triv s)).1
    have k1 : thenFields c fin X = if e then (fin s).bind (fun _ s => .err .panic s) else fin s := by
      unfold thenFields; rw [e1]; cases e <;> rfl
    have m3 : Mono s (thenFields c fin X).heap := by
      rw [k1]; cases e
      · exact m2
      · cases hs : fin s with
        | ok b s2 => rw [hs] at m2; exact m2
        | err b s2 => rw [hs] at m2; exact m2
    refine ⟨m1.trans m3, ?_⟩
    have mk : ρ.Fin (thenFields c fin X).heap → ∃ H', thenFields c fin H = (if e then (fin H').bind (fun _ s => .err .panic s) else fin H') ∧ RRel ρ (fin s) (fin H') := by
      intro hF
      have hF1 : ρ.Fin s := fun a hp he => m3.live a (Nat.lt_of_lt_of_le (A.bE a he) m1.nextAddr) (hF a hp he)
      obtain ⟨H', e3, A'⟩ := r1 hF1
      refine ⟨H', ?_, (hf ρ s H' A').2⟩
      unfold thenFields; rw [e3]; cases e <;> rfl
    cases e
    · simp only [Bool.false_eq_true, if_false] at k1 mk
      rw [k1] at mk ⊢
      cases hs : fin s with
      | ok b s2 =>
        rw [hs] at mk
        intro hF
        obtain ⟨H', e4, r⟩ := mk hF
        rw [e4]; exact r hF
      | err b s2 =>
        rw [hs] at mk
        cases b
        · intro hF
          obtain ⟨H', e4, r⟩ := mk hF
          rw [e4]; exact r hF
        · trivial
        · trivial
        · trivial
    · simp only [if_true] at k1 mk
      rw [k1] at mk ⊢
      cases hs : fin s with
      | ok b s2 =>
        rw [hs] at mk
        intro hF
        obtain ⟨H', e4, r⟩ := mk hF
        obtain ⟨H2, e5, A2⟩ := r hF
        rw [e4, e5]; exact ⟨H2, rfl, A2⟩
      | err b s2 =>
        rw [hs] at mk
        cases b
        · intro hF
          obtain ⟨H', e4, r⟩ := mk hF
          obtain ⟨H2, e5, A2⟩ := r hF
          rw [e4, e5]; exact ⟨H2, rfl, A2⟩
        · trivial
        · trivial
        · trivial
  cases e1 : c X with
  | ok b s => rw [e1] at m1 r1; exact go (e := false) (s := s) e1 m1 r1
  | err b s =>
    rw [e1] at m1 r1
    cases b
    · exact go (e := true) (s := s) e1 m1 r1
    · unfold thenFields; rw [e1]; exact ⟨m1, trivial⟩
    · unfold thenFields; rw [e1]; exact ⟨m1, trivial⟩
    · unfold thenFields; rw [e1]; exact ⟨m1, trivial⟩
theorem rob_intoIterDropP (n : Nat) (a : Addr) : Robust (intoIterDropP n a : M α _) := by
  refine rob_thenFields ?_ (rob_dropRootP n a)
  exact Robust.fuelled_size (f := fun s => intoIterDropLoopP n (s.degree + 1) a) (fun n => rob_intoIterDropLoopP _ _ _) (by
    intro n h hl
    exact ⟨.ub, h, by simp [intoIterDropLoopP, popFront_dead hl], by simp⟩)

theorem cstep_rob {ρ : Ctx α} {X H : Heap α} {env : Var → Option Handle} {fr : Nat} (A : HRel ρ X H) (hF : ρ.Fin X) (op : COp α) :
    ORel ρ X (cstep ⟨X, env, fr⟩ op) (cstep ⟨H, env, fr⟩ op) := by
  cases op with
  | call op => exact step_rob A hF op
  | mapBfs x l f =>
    simp only [cstep, Machine.retVar]
    exact ORel.onNode A hF fun n => ORel.run_ret A (rob_mapBfsC f n) (g := fun a => (upd env fr (some (.tree a)), fr + 1, .var fr))
  | mapBfsForest x p f =>
    simp only [cstep, Machine.retVar]
    exact ORel.onKids A hF fun _ n => ORel.run_ret A (rob_mapBfsForestC f n) (g := fun a => (upd env fr (some (.forest a)), fr + 1, .var fr))
  | rebuild x f =>
    simp only [cstep, Machine.retVar, Machine.setEnv]
    cases env x with
    | none => rfl
    | some hd =>
      cases hd with
      | tree r => exact ORel.run_ret A (rob_rebuildTreeC f r) (g := fun a => (upd (upd env x none) fr (some (.tree a)), fr + 1, .var fr))
      | forest r => exact ORel.run_ret A (rob_rebuildForestC f r) (g := fun a => (upd (upd env x none) fr (some (.forest a)), fr + 1, .var fr))
      | iter r => rfl
  | ofVisits t j =>
    simp only [cstep, Machine.retVar]
    exact ORel.run_ret A (rob_treeFromBfs rob_listNext (fun _ => rob_dropVisits _) _) (g := fun a => (upd env fr (some (.tree a)), fr + 1, .var fr))
  | ofVisitsForest ts j =>
    simp only [cstep, Machine.retVar]
    exact ORel.run_ret A (rob_forestFromBfs rob_listNext (fun _ => rob_dropVisits _) _ _) (g := fun a => (upd env fr (some (.forest a)), fr + 1, .var fr))
  | forget x =>
    simp only [cstep, Machine.ret, Machine.setEnv]
    split
    · exact ⟨.refl X, fun _ => ⟨H, rfl, A⟩⟩
    · rfl
  | dropPanic x j =>
    have e : H.log.length = X.log.length := by rw [A.log]
    simp only [cstep, Machine.ret, Machine.setEnv, e]
    split
    · exact ORel.run_ret A (rob_intoIterDropP _ _) (g := fun _ => (upd env x none, fr, .unit))
    · exact ORel.run_ret A (rob_dropRootP _ _) (g := fun _ => (upd env x none, fr, .unit))
    · rfl
  | setDataPanic x l d =>
    have := step_rob (env := env) (fr := fr) A hF (.setData x l d)
    simp only [cstep]
    cases e1 : step (⟨X, env, fr⟩ : Machine α) (.setData x l d) with
    | ok m o =>
      rw [e1] at this
      cases o
      case unit =>
        refine ⟨this.1, fun hf => ?_⟩
        obtain ⟨H', e2, A2⟩ := this.2 hf
        exact ⟨H', by rw [e2], A2⟩
      all_goals
        refine ⟨this.1, fun hf => ?_⟩
        obtain ⟨H', e2, A2⟩ := this.2 hf
        exact ⟨H', by rw [e2], A2⟩
    | panic m =>
      rw [e1] at this
      refine ⟨this.1, fun hf => ?_⟩
      obtain ⟨H', e2, A2⟩ := this.2 hf
      exact ⟨H', by rw [e2], A2⟩
    | rejected => rw [e1] at this; simp only [ORel] at this; rw [this]; rfl
    | bad => trivial

/-- Every call does the same in the presence of leaked memory. -/
theorem cstep_leak {X H : Heap α} (h : Leak X H) {env : Var → Option Handle} {fr : Nat} (op : COp α) :
    OLeak (cstep ⟨X, env, fr⟩ op) (cstep ⟨H, env, fr⟩ op) := by
  induction h with
  | refl => exact .refl _
  | more a r _ ih => exact ((cstep_rob r (a.fin _) op).oleak a).trans ih

/-! ### Reading in the presence of leaked memory -/

theorem rob_readHandle_leak (hd : Handle) : Robust (readHandle hd : M α _) := by
  have hk : ∀ a, Robust (readKids a : M α _) := by
    intro a ρ X H A
    simp only [readKids, M.fuelled_apply]
    cases hl : X.live a with
    | false =>
      have e : ∀ n, (do let cs ← children a; readMany (readTree n) cs : M α (List (RTree α))) X = .err .ub X := by
        intro n
        simp [children, iter, getHead, rd, hl]
      rw [e]
      exact ⟨.refl _, trivial⟩
    | true =>
      have : H.size a = X.size a := by rw [A.size, A.notP hl, pick_false]
      rw [this]
      exact ((rob_children a).bind fun cs => rob_readMany (fun b => rob_readTree _ b) cs) ρ X H A
  cases hd with
  | tree r =>
    refine Robust.bind ?_ fun _ => .pure _
    intro ρ X H A
    simp only [M.fuelled_apply]
    cases hl : X.live r with
    | false =>
      have e : ∀ n, (readTree (n + 1) r : M α (RTree α)) X = .err .ub X := by
        intro n
        simp [readTree, dataRef, getData, rd, hl]
      rw [e]
      exact ⟨.refl _, trivial⟩
    | true =>
      have : H.size r = X.size r := by rw [A.size, A.notP hl, pick_false]
      rw [this]
      exact rob_readTree _ r ρ X H A
  | forest r => exact (hk r).bind fun _ => .pure _
  | iter r => exact (hk r).bind fun _ => .pure _

/-! ### Sources that panic -/

theorem framed_mapNextC {f : Nat → δ → Option κ} {nxt : σ → M α (Option (δ × Size) × σ)} (hn : ∀ s, Framed (nxt s))
    {unw : δ → σ → M α Unit} (hu : ∀ d s, Framed (unw d s)) (s : σ × Nat) : Framed (mapNextC f nxt unw s) := by
  unfold mapNextC
  refine (hn s.1).bind fun o => ?_
  dsimp only
  split
  · split
    · exact .pure _
    · exact (hu _ _).bind fun _ => .throw _
  · exact .pure _

theorem framed_refUnwind (d : α) (s : List RawIter) : Framed (refUnwind d s) := framed_refSrc.dropIters _
theorem framed_ownUnwind (d : α) (s : List Addr) : Framed (ownUnwind d s) := (framed_logDrop d).bind fun _ => framed_ownSrc.dropIters _

/-- One more visit. -/
theorem bfsRest_next {ts : List (RTree α)} {k : Nat} (hk : k < countL ts) :
    ∃ t r, (levelOrder ts)[k]? = some t ∧ bfsRest k ts = t :: r ∧ bfsRest (k + 1) ts = r ++ t.kids := by
  obtain ⟨h1, h2⟩ := qbfs_drop k ts (Nat.le_of_lt hk)
  have hl : k < (qbfs ts).length := by rw [length_qbfs]; exact hk
  rw [List.drop_eq_getElem_cons hl] at h1
  cases hb : (ts ++ ((qbfs ts).take k).flatMap kids).drop k with
  | nil => rw [hb, qbfs_nil] at h1; simp at h1; omega
  | cons t r =>
    rw [hb, qbfs_cons, List.cons.injEq] at h1
    refine ⟨t, r, by rw [levelOrder_eq, List.getElem?_eq_getElem hl, h1.1], by rw [bfsRest, levelOrder_eq, hb], ?_⟩
    rw [bfsRest, levelOrder_eq, List.take_add_one, List.getElem?_eq_getElem hl, ← h1.1]
    simp only [Option.toList_some, List.flatMap_append, List.flatMap_singleton]
    rw [← List.append_assoc]
    have hlt : k < (ts ++ ((qbfs ts).take k).flatMap kids).length := by
      have := congrArg List.length hb
      rw [List.length_drop, List.length_cons] at this
      omega
    rw [List.drop_append_of_le_length hlt]
    congr 1
    have := congrArg (List.drop 1) hb
    rw [List.drop_drop] at this
    simpa [Nat.add_comm] using this

theorem visits_bfsRest {ts : List (RTree α)} {k : Nat} (hk : k ≤ countL ts) : visits (bfsRest k ts) = (visits ts).drop k := by
  rw [visits, bfsRest, levelOrder_eq, (qbfs_drop k ts hk).1, visits, List.map_drop]

theorem firstPanic_some {f : Nat → α → Option α} {ts : List (RTree α)} {n : Nat} (h : firstPanic f ts = some n) :
    n < countL ts ∧ (∃ t, (levelOrder ts)[n]? = some t ∧ f n t.data = none) ∧
    ∀ j t, j < n → (levelOrder ts)[j]? = some t → f j t.data ≠ none := by
  rw [firstPanic, List.find?_eq_some_iff_getElem] at h
  obtain ⟨h1, i, hi, e, h2⟩ := h
  rw [List.getElem_range] at e
  subst e
  rw [List.length_range] at hi
  have hl : i < (levelOrder ts).length := by rw [levelOrder_eq, length_qbfs]; exact hi
  refine ⟨hi, ⟨_, List.getElem?_eq_getElem hl, ?_⟩, ?_⟩
  · rw [List.getElem?_eq_getElem hl] at h1
    simpa using h1
  · intro j t hj ht e
    have := h2 j hj
    rw [List.getElem_range, ht] at this
    simp [e] at this

theorem firstPanic_none {f : Nat → α → Option α} {ts : List (RTree α)} (h : firstPanic f ts = none) :
    ∀ (j : Nat) (t : RTree α), (levelOrder ts)[j]? = some t → f j t.data ≠ none := by
  intro j t ht e
  rw [firstPanic, List.find?_eq_none] at h
  have hl := (List.getElem?_eq_some_iff.mp ht).1
  rw [levelOrder_eq, length_qbfs] at hl
  have := h j (List.mem_range.mpr hl)
  rw [ht] at this
  simp [e] at this

/-- The state of an iteration over `ts` with a closure: `ys` are the visits to come before it ends or panics. -/
def CrashR (I : Heap α → List ι → List (List (RTree α)) → Prop) (f : Nat → α → Option α) (ts : List (RTree α)) (n : Nat)
    (s : List ι × Nat) (h : Heap α) (ys : List (α × Size)) : Prop :=
  ∃ tss, I h s.1 tss ∧ s.2 ≤ n ∧ tss.flatten = bfsRest s.2 ts ∧
    ys = (((visits ts).mapIdx (fun i v => (orSame f i v.1, v.2))).drop s.2).take (n - s.2)

section
variable {S : Src α ι κ α} {I : Heap α → List ι → List (List (RTree α)) → Prop} {f : Nat → α → Option α} {ts : List (RTree α)} {n : Nat}
  {unw : α → List ι → M α Unit}

theorem crash_cons (hS : SrcSpec S I) (hn : n ≤ countL ts) (hf : ∀ j t, j < n → (levelOrder ts)[j]? = some t → f j t.data ≠ none)
    (s : List ι × Nat) (h : Heap α) (x : α × Size) (xs : List (α × Size)) (hR : CrashR I f ts n s h (x :: xs)) :
    ∃ s' h', mapNextC f (splittedNext S) unw s h = .ok (some x, s') h' ∧ CrashR I f ts n s' h' xs := by
  obtain ⟨tss, hI, hle, hfl, e⟩ := hR
  obtain ⟨s, k⟩ := s
  simp only at hI hle hfl e
  have hk : k < n := by
    refine Nat.lt_of_le_of_ne hle fun e' => ?_
    subst e'
    simp at e
  obtain ⟨t, r, h1, h2, h3⟩ := bfsRest_next (ts := ts) (k := k) (by omega)
  obtain ⟨h', s', tss', e1, hI', hf'⟩ := hS.next_cons s h tss t r hI (by rw [hfl, h2])
  have hlv : k < (visits ts).length := by rw [length_visits]; omega
  have hvk : (visits ts)[k]? = some (t.data, szOf t) := by
    rw [levelOrder_eq] at h1
    simp [visits, h1]
  rw [List.drop_eq_getElem_cons (by simpa using hlv), show n - k = (n - (k + 1)) + 1 by omega, List.take_succ_cons, List.cons.injEq] at e
  rw [List.getElem?_eq_getElem hlv, Option.some.injEq] at hvk
  simp only [List.getElem_mapIdx, hvk] at e
  obtain ⟨rfl, rfl⟩ := e
  obtain ⟨w, hw⟩ := Option.ne_none_iff_exists'.mp (hf k t hk h1)
  refine ⟨(s', k + 1), h', ?_, tss', hI', hk, by rw [hf', h3], rfl⟩
  simp [mapNextC, e1, hw, orSame]

/-- The last call panics. -/
theorem crash_nil (hS : SrcSpec S I) (hFr : S.Framed) (hu : ∀ d s, Framed (unw d s)) {E : Heap α → Prop} {tn : RTree α}
    (h1 : (levelOrder ts)[n]? = some tn) (hf : f n tn.data = none)
    (hE : ∀ h s tss, I h s tss → tss.flatten = bfsRest (n + 1) ts → ∃ h', unw tn.data s h = .ok () h' ∧ E h')
    (s : List ι × Nat) (h : Heap α) (hR : CrashR I f ts n s h []) :
    ∃ h', E h' ∧ ∀ P Q F, Avoid P Q h → Avoid P Q h' ∧ mapNextC f (splittedNext S) unw s (join P Q h F) = .err .panic (join P Q h' F) := by
  obtain ⟨tss, hI, hle, hfl, e⟩ := hR
  obtain ⟨s, k⟩ := s
  simp only at hI hle hfl e
  have hlt := (List.getElem?_eq_some_iff.mp h1).1
  rw [levelOrder_eq, length_qbfs] at hlt
  have hk : k = n := by
    refine Nat.le_antisymm hle (Nat.le_of_not_lt fun hlt' => ?_)
    have := congrArg List.length e
    simp only [List.length_nil, List.length_take, List.length_drop, List.length_mapIdx, length_visits] at this
    omega
  subst hk
  obtain ⟨t, r, h1', h2, h3⟩ := bfsRest_next (ts := ts) (k := k) hlt
  rw [h1, Option.some.injEq] at h1'
  subst h1'
  obtain ⟨h', s', tss', e1, hI', hf'⟩ := hS.next_cons s h tss tn r hI (by rw [hfl, h2])
  obtain ⟨h'', e2, hE'⟩ := hE h' s' tss' hI' (by rw [hf', h3])
  refine ⟨h'', hE', fun P Q F A => ?_⟩
  obtain ⟨A1, e3⟩ := hFr.splittedNext s P Q F _ _ _ A e1
  obtain ⟨A2, e4⟩ := hu tn.data s' P Q F _ _ _ A1 e2
  refine ⟨A2, ?_⟩
  simp [mapNextC, e3, hf, e4]

theorem crash_end (hS : SrcSpec S I) (hn : n = countL ts) (s : List ι × Nat) (h : Heap α) (hR : CrashR I f ts n s h []) :
    ∃ s' h', mapNextC f (splittedNext S) unw s h = .ok (none, s') h' ∧ CrashR I f ts n s' h' [] := by
  obtain ⟨tss, hI, hle, hfl, e⟩ := hR
  obtain ⟨s, k⟩ := s
  simp only at hI hle hfl e
  have hk : k = countL ts := by
    have := congrArg List.length e
    simp only [List.length_nil, List.length_take, List.length_drop, List.length_mapIdx, length_visits] at this
    omega
  have hb : bfsRest k ts = [] := by
    have := congrArg List.length (visits_bfsRest (ts := ts) (k := k) (by omega))
    rw [length_visits, List.length_drop, length_visits, hk, Nat.sub_self] at this
    rw [hk]
    exact countL_eq_zero this
  obtain ⟨h', e1, hI'⟩ := hS.next_nil s h tss hI (by rw [hfl, hb])
  refine ⟨([], k), h', by simp [mapNextC, e1], [], hI', hle, by simp [hb], e⟩

end

end Trees
