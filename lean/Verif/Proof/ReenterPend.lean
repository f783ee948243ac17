import Verif.Proof.ReenterLift
import Verif.Proof.Step
/-
The state of the crate while destructors run: values that are being dropped are held by nobody the program can name.
-/
namespace Trees
set_option linter.unusedSimpArgs false
set_option linter.unusedVariables false
variable {α β γ : Type}

/-- What the read API shows of a handle. -/
def hread (h : Heap α) (hd : Handle) : Option (Val α) := match readHandle hd h with
  | .ok v _ => some v
  | .err _ _ => none

theorem view_hread {m : Machine α} {x : Var} : m.view x = (m.env x).bind (hread m.heap) := by
  unfold Machine.view
  cases m.env x with
  | none => rfl
  | some hd => rfl

/-- The handles `P`, which denote the values `V`, are out of the program's reach; everything else is as usual. -/
structure Pend (m : Machine α) (P : List Handle) (V : List (Val α)) : Prop where
  inv : ∃ K, MInv (m.lift P) K
  val : P.map (hread m.heap) = V.map some

section
variable {m : Machine α} {P : List Handle} {V : List (Val α)}

theorem Pend.len (p : Pend m P V) : P.length = V.length := by simpa using congrArg List.length p.val

theorem Pend.store (p : Pend m P V) : (m.lift P).store = m.store.lift V := by
  unfold Machine.store Store.lift
  simp only [Machine.lift, Store.mk.injEq, and_true, p.len]
  funext x
  rw [view_hread]
  by_cases hx : x < P.length
  · have hx' : x < V.length := p.len ▸ hx
    rw [liftE_lt hx']
    show (liftE P m.env x).bind (hread m.heap) = _
    rw [liftE_lt hx]
    have := congrArg (fun l => l[x]?) p.val
    simp only [List.getElem?_map] at this
    rw [List.getElem?_eq_getElem hx] at this ⊢
    rw [List.getElem?_eq_getElem hx'] at this ⊢
    simpa using this
  · obtain ⟨y, rfl⟩ : ∃ y, x = y + P.length := ⟨x - P.length, (Nat.sub_add_cancel (Nat.le_of_not_lt hx)).symm⟩
    show (liftE P m.env (y + P.length)).bind (hread m.heap) = _
    rw [liftE_add]
    rw [p.len, liftE_add, view_hread]

/-- The values read back. -/
theorem pend_of (hI : ∃ K, MInv (m.lift P) K) {S : Store α} (h : (m.lift P).store = S.lift V) (hl : P.length = V.length) :
    m.store = S ∧ Pend m P V := by
  have hv : ∀ x, (m.lift P).view x = liftE V S.vars x := fun x => congrFun (congrArg Store.vars h) x
  constructor
  · have h1 : m.fresh + P.length = S.fresh + V.length := congrArg Store.fresh h
    have h2 : m.heap.log = S.dropped := congrArg Store.dropped h
    cases S with
    | mk vars fresh dropped =>
    simp only [Machine.store, Store.mk.injEq]
    refine ⟨?_, by simp only at h1; omega, h2⟩
    funext x
    have := hv (x + P.length)
    rw [view_hread] at this
    rw [view_hread]
    rw [hl, liftE_add, ← hl] at this
    refine Eq.trans ?_ this
    show _ = (liftE P m.env (x + P.length)).bind (hread m.heap)
    rw [liftE_add]
  · refine ⟨hI, ?_⟩
    apply List.ext_getElem?
    intro i
    simp only [List.getElem?_map]
    by_cases hi : i < P.length
    · have hi' : i < V.length := hl ▸ hi
      have := hv i
      rw [view_hread, liftE_lt hi'] at this
      rw [show (m.lift P).env i = P[i]? from liftE_lt hi] at this
      rw [List.getElem?_eq_getElem hi] at this ⊢
      rw [List.getElem?_eq_getElem hi'] at this ⊢
      exact congrArg some this
    · rw [List.getElem?_eq_none (Nat.le_of_not_lt hi), List.getElem?_eq_none (hl ▸ Nat.le_of_not_lt hi)]
      rfl

/-- A call while values are pending. -/
def PSim (P : List Handle) (V : List (Val α)) : Outcome (Machine α) α → Outcome (Store α) α → Prop
  | .ok m o, .ok S o' => o = o' ∧ m.store = S ∧ Pend m P V
  | .panic m, .panic S => m.store = S ∧ Pend m P V
  | .rejected, .rejected => True
  | _, _ => False

theorem Pend.call (p : Pend m P V) (op : Op α) : PSim P V (step m op) (specStep m.store op) := by
  obtain ⟨K, M⟩ := p.inv
  have hs := step_refines M M.abs_store (op.up P.length)
  rw [lift_step, p.store, p.len, slift_specStep] at hs
  cases h1 : step m op <;> cases h2 : specStep m.store op <;> rw [h1, h2] at hs <;>
    simp only [Outcome.up, Sim, PSim] at hs ⊢
  · obtain ⟨h3, K', M', A'⟩ := hs
    exact ⟨Out.up_inj h3, pend_of ⟨K', M'⟩ (A'.store_eq M') p.len⟩
  · obtain ⟨K', M', A'⟩ := hs
    exact pend_of ⟨K', M'⟩ (A'.store_eq M') p.len

/-- The invariant does not depend on which variables hold the handles. -/
theorem MInv.reenv {m : Machine α} {K : Addr → List Addr} (M : MInv m K) {e : Var → Option Handle} {fr : Nat} (f g : Var → Var)
    (hf : ∀ x hd, e x = some hd → ∃ hd', m.env (f x) = some hd' ∧ hd'.addr = hd.addr ∧ (HKind m.heap hd' → HKind m.heap hd))
    (hi : ∀ x y hx hy, e x = some hx → e y = some hy → f x = f y → x = y)
    (hg : ∀ y hd, m.env y = some hd → ∃ hd', e (g y) = some hd' ∧ hd'.addr = hd.addr)
    (hfr : ∀ x, fr ≤ x → e x = none) : MInv ⟨m.heap, e, fr⟩ K where
  inv := M.inv
  st := M.st
  kv := M.kv
  hnd := by
    intro x hd h
    obtain ⟨hd', h1, h2, h3⟩ := hf x hd h
    have := M.hnd _ _ h1
    exact ⟨h2 ▸ this.used, h2 ▸ this.root, h3 this.kind⟩
  dist := by
    intro x y hx hy h1 h2 h3
    obtain ⟨hx', a1, a2, -⟩ := hf x hx h1
    obtain ⟨hy', b1, b2, -⟩ := hf y hy h2
    exact hi x y hx hy h1 h2 (M.dist _ _ _ _ a1 b1 (by rw [a2, b2]; exact h3))
  all := by
    intro a h1 h2
    obtain ⟨y, hd, h3, h4⟩ := M.all a h1 h2
    obtain ⟨hd', h5, h6⟩ := hg y hd h3
    exact ⟨g y, hd', h5, h6.trans h4⟩
  fr := hfr

theorem liftE_none {P : List γ} {e : Var → Option γ} {n : Nat} (h : ∀ x, n ≤ x → e x = none) : ∀ x, n + P.length ≤ x → liftE P e x = none := by
  intro x hx
  obtain ⟨y, rfl⟩ : ∃ y, x = y + P.length := ⟨x - P.length, (Nat.sub_add_cancel (Nat.le_trans (Nat.le_add_left _ _) hx)).symm⟩
  rw [liftE_add]
  exact h y (Nat.le_of_add_le_add_right hx)

theorem Pend.fr (p : Pend m P V) : ∀ x, m.fresh ≤ x → m.env x = none := by
  obtain ⟨K, M⟩ := p.inv
  intro x hx
  have := M.fr (x + P.length) (Nat.add_le_add_right hx _)
  rwa [show (m.lift P).env (x + P.length) = m.env x from liftE_add x] at this

/-- Take a value away from the program. -/
theorem Pend.take (p : Pend m P V) {x : Var} {hd : Handle} (hx : m.env x = some hd) :
    ∃ v, m.store.vars x = some v ∧ Pend { m with env := m.setEnv x none } (hd :: P) (v :: V) ∧
      ({ m with env := m.setEnv x none } : Machine α).store = m.store.set x none := by
  obtain ⟨K, M⟩ := p.inv
  have hx' : (m.lift P).env (x + P.length) = some hd := by rw [← hx]; exact liftE_add x
  obtain ⟨v, hv⟩ := HDen.exists M.inv M.kv (M.hnd _ _ hx')
  have hr : hread m.heap hd = some v := by
    have := hv.read M.inv (M.hnd _ _ hx')
    unfold hread
    rw [show readHandle hd m.heap = .ok v m.heap from this]
  refine ⟨v, ?_, ⟨⟨K, ?_⟩, ?_⟩, ?_⟩
  · show m.view x = some v
    rw [view_hread, hx]; exact hr
  · refine M.reenv (f := fun z => if z = 0 then x + P.length else z - 1) (g := fun z => if z = x + P.length then 0 else z + 1) ?_ ?_ ?_ ?_
    · intro z hd' hz
      cases z with
      | zero => exact ⟨hd, hx', by cases hz; exact ⟨rfl, id⟩⟩
      | succ z =>
        refine ⟨hd', ?_, rfl, id⟩
        show (m.lift P).env z = _
        rw [liftE_succ] at hz
        rw [Machine.setEnv, liftE_upd] at hz
        by_cases hzx : z = x + P.length
        · subst hzx; simp [upd] at hz
        · rwa [upd_of_ne _ _ hzx] at hz
    · intro z y hz hy h1 h2 h3
      have key : ∀ z, (∃ hz, liftE (hd :: P) (m.setEnv x none) (z + 1) = some hz) → z ≠ x + P.length := by
        rintro z ⟨hz, h⟩ rfl
        rw [liftE_succ, Machine.setEnv, liftE_upd] at h
        simp [upd] at h
      cases z with
      | zero =>
        cases y with
        | zero => rfl
        | succ y => exact absurd h3.symm (key y ⟨_, h2⟩)
      | succ z =>
        cases y with
        | zero => exact absurd h3 (key z ⟨_, h1⟩)
        | succ y =>
          have : z = y := h3
          rw [this]
    · intro y hd' hy
      by_cases hyx : y = x + P.length
      · refine ⟨hd, ?_, ?_⟩
        · show liftE (hd :: P) _ (if y = x + P.length then 0 else y + 1) = _
          rw [if_pos hyx]; rfl
        · rw [hyx] at hy; rw [hx'] at hy; cases hy; rfl
      · refine ⟨hd', ?_, rfl⟩
        show liftE (hd :: P) _ (if y = x + P.length then 0 else y + 1) = _
        rw [if_neg hyx, liftE_succ, Machine.setEnv, liftE_upd, upd_of_ne _ _ hyx]
        exact hy
    · refine liftE_none (n := m.fresh) fun z hz => ?_
      show upd m.env x none z = none
      by_cases hzx : z = x
      · subst hzx; simp [upd]
      · rw [upd_of_ne _ _ hzx]; exact p.fr z hz
  · simp only [List.map_cons]; rw [p.val, hr]
  · simp only [Machine.store, Store.set_eq, Store.mk.injEq, and_true]
    funext z
    rw [view_hread]
    simp only [Machine.setEnv, upd]
    split
    · rfl
    · exact view_hread.symm

/-- Give a value back to the program. -/
theorem Pend.give {hd : Handle} {v : Val α} (p : Pend m (hd :: P) (v :: V)) {x : Var} (hx : m.env x = none) (hf : x < m.fresh) :
    Pend { m with env := m.setEnv x (some hd) } P V ∧
      ({ m with env := m.setEnv x (some hd) } : Machine α).store = m.store.set x (some v) := by
  obtain ⟨K, M⟩ := p.inv
  have hval := p.val
  simp only [List.map_cons, List.cons.injEq] at hval
  refine ⟨⟨⟨K, ?_⟩, hval.2⟩, ?_⟩
  · have he : ∀ z, (m.lift (hd :: P)).env (z + 1) = liftE P m.env z := fun z => liftE_succ z
    have hx0 : liftE P m.env (x + P.length) = none := by rw [liftE_add]; exact hx
    refine M.reenv (f := fun z => if z = x + P.length then 0 else z + 1) (g := fun z => if z = 0 then x + P.length else z - 1) ?_ ?_ ?_ ?_
    · intro z hd' hz
      rw [Machine.setEnv, liftE_upd] at hz
      by_cases hzx : z = x + P.length
      · subst hzx
        have : hd = hd' := by simpa [upd] using hz
        subst this
        refine ⟨hd, ?_, rfl, id⟩
        show (m.lift (hd :: P)).env (if x + P.length = x + P.length then 0 else _) = _
        rw [if_pos rfl]; rfl
      · rw [upd_of_ne _ _ hzx] at hz
        refine ⟨hd', ?_, rfl, id⟩
        show (m.lift (hd :: P)).env (if z = x + P.length then 0 else z + 1) = _
        rw [if_neg hzx, he]; exact hz
    · intro z y hz hy h1 h2 h3
      split at h3 <;> split at h3
      · rename_i a b; rw [a, b]
      · cases h3
      · cases h3
      · exact Nat.succ.inj h3
    · intro y hd' hy
      cases y with
      | zero =>
        refine ⟨hd, ?_, ?_⟩
        · show liftE P (m.setEnv x (some hd)) (x + P.length) = _
          rw [liftE_add]; simp [Machine.setEnv, upd]
        · cases hy; rfl
      | succ y =>
        rw [he] at hy
        refine ⟨hd', ?_, rfl⟩
        show liftE P (m.setEnv x (some hd)) y = _
        rw [Machine.setEnv, liftE_upd, upd_of_ne _ _ (by rintro rfl; rw [hx0] at hy; cases hy)]
        exact hy
    · refine liftE_none (n := m.fresh) fun z hz => ?_
      show upd m.env x (some hd) z = none
      rw [upd_of_ne _ _ (by rintro rfl; exact absurd hf (Nat.not_lt.mpr hz))]; exact p.fr z hz
  · simp only [Machine.store, Store.set_eq, Store.mk.injEq, and_true]
    funext z
    rw [view_hread]
    simp only [Machine.setEnv, upd]
    split
    · exact hval.1
    · exact view_hread.symm

/-- An `IntoIter` that is being dropped is its forest. -/
theorem Pend.forest {f : Addr} {ts : List (RTree α)} (p : Pend m (.iter f :: P) (.iter ts :: V)) : Pend m (.forest f :: P) (.forest ts :: V) := by
  obtain ⟨K, M⟩ := p.inv
  have hval := p.val
  simp only [List.map_cons, List.cons.injEq] at hval
  have hf := M.hnd 0 (.iter f) rfl
  refine ⟨⟨K, ?_⟩, ?_⟩
  · refine M.reenv (f := id) (g := id) ?_ ?_ ?_ ?_
    · intro z hd hz
      cases z with
      | zero => cases hz; exact ⟨.iter f, rfl, rfl, id⟩
      | succ z =>
        rw [liftE_succ] at hz
        exact ⟨hd, by show liftE _ _ (z + 1) = _; rw [liftE_succ]; exact hz, rfl, id⟩
    · intro _ _ _ _ _ _ h; exact h
    · intro z hd hz
      cases z with
      | zero => cases hz; exact ⟨.forest f, rfl, rfl⟩
      | succ z =>
        have hz' : liftE _ _ (z + 1) = some hd := hz
        rw [liftE_succ] at hz'
        exact ⟨hd, by show liftE _ _ (z + 1) = _; rw [liftE_succ]; exact hz', rfl⟩
    · exact liftE_none (n := m.fresh) p.fr
  · simp only [List.map_cons, List.cons.injEq]
    refine ⟨?_, hval.2⟩
    have h1 := hval.1
    simp only [hread, readHandle, Trees.M.bind_apply] at h1 ⊢
    cases hk : readKids f m.heap with
    | ok ts' h =>
      rw [hk] at h1
      simp only [Res.bind_ok] at h1 ⊢
      have : ts' = ts := by cases h1; rfl
      rw [this]; rfl
    | err e h => rw [hk] at h1; cases h1

/-- Everything about the first pending value. -/
theorem Pend.top {hd : Handle} {v : Val α} (p : Pend m (hd :: P) (v :: V)) :
    ∃ K, MInv (m.lift (hd :: P)) K ∧ HOK m.heap hd ∧ HDen m.heap K hd v := by
  obtain ⟨K, M⟩ := p.inv
  have ho := M.hnd 0 hd rfl
  obtain ⟨w, hw⟩ := HDen.exists M.inv M.kv ho
  have hval := p.val
  simp only [List.map_cons, List.cons.injEq] at hval
  have h1 := hval.1
  unfold hread at h1
  rw [show readHandle hd m.heap = .ok w m.heap from hw.read M.inv ho] at h1
  cases h1
  exact ⟨K, M, ho, hw⟩

theorem Pend.desc {hd : Handle} {v : Val α} (p : Pend m (hd :: P) (v :: V)) : (m.heap.size hd.addr).descendants = RTree.countL v.kids ∧
    (m.heap.size hd.addr).degree = v.kids.length := by
  obtain ⟨K, M, ho, hden⟩ := p.top
  have hk := hden.kids
  have hI : Inv m.heap K := M.inv
  rw [hI.s _ ho.used]
  exact ⟨hI.dsum_eq (fun c hc => hI.used_of_mem hc) hk, hk.length⟩

/-- `pop_front` on a value without children. -/
theorem Pend.pop_nil {hd : Handle} {v : Val α} (p : Pend m (hd :: P) (v :: V)) (hv : v.kids = []) :
    popFront hd.addr m.heap = .ok none m.heap := by
  obtain ⟨K, M, ho, hden⟩ := p.top
  have hk := hden.kids
  rw [hv] at hk
  have hK : K hd.addr = [] := by
    cases h : K hd.addr with
    | nil => rfl
    | cons c cs => rw [h] at hk; simp at hk
  exact popFront_nil M.inv ho.used hK

end
end Trees
