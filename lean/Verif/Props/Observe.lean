import Verif.Props.Nodes
/-
C06, C07, C08, C13: reading calls, `parent`, child iteration, owning iteration.
-/
namespace Trees
set_option linter.unusedSimpArgs false
variable {α : Type}

/-- The node (its address) that a client reaches from variable `x` along path `p` with
`iter().nth(i)` steps. -/
def Machine.nodeAt (m : Machine α) (x : Var) (p : Path) : Option Addr :=
  match m.env x with
  | none => none
  | some hd => match locate hd.addr p m.heap with
    | .ok o _ => o
    | .err _ _ => none

/-- Call `next` `k` times: the items returned and the final iterator. -/
def RawIter.drive : Nat → RawIter → M α (List (Option Addr) × RawIter)
  | 0, it => pure ([], it)
  | k+1, it => do
    let (o, it') ← it.next
    let (os, it'') ← it'.drive k
    return (o :: os, it'')

namespace Proof

theorem nodeAt_at {m : Machine α} {K : Addr → List Addr} (M : MInv m K) {x : Var} {p : Path} {v : Val α}
    {us : List (RTree α)} (hx : m.view x = some v) (hp : kidsAt v.kids p = some us) :
    ∃ hd n, m.nodeAt x p = some n ∧ At m K m.store x p hd n v us := by
  have hA := M.abs_store.vars x
  cases he : m.env x with
  | none => simp [Machine.view, he] at hx
  | some hd =>
    rw [he] at hA
    obtain ⟨w, e, hw⟩ := hA
    have : w = v := by
      have : m.store.vars x = some v := hx
      rw [e] at this; exact Option.some.inj this
    subst this
    have hr := resolve_kidsAt (p := p) hw.kids
    cases hn : resolve K hd.addr p with
    | none => rw [hn] at hr; simp only at hr; rw [hp] at hr; simp at hr
    | some n =>
      rw [hn] at hr
      obtain ⟨us', h1, h2⟩ := hr
      rw [hp] at h1
      obtain rfl := Option.some.inj h1
      refine ⟨hd, n, ?_, he, e, hw, hn, hp, h2⟩
      simp [Machine.nodeAt, he, locate_ok M.inv (M.hnd x hd he).used, hn]

theorem nodeAt_child {m : Machine α} {K : Addr → List Addr} (M : MInv m K) {x : Var} {p : Path} {v : Val α}
    {us : List (RTree α)} {hd n} (a : At m K m.store x p hd n v us) (i : Nat) : m.nodeAt x (p ++ [i]) = (K n)[i]? := by
  simp only [Machine.nodeAt, a.env, locate_ok M.inv (M.hnd x hd a.env).used, resolve_append, a.res, Option.bind_some,
    resolve]
  cases (K n)[i]? <;> rfl

theorem drive_ok {h : Heap α} : ∀ (k : Nat) {it : RawIter} {cs : List Addr}, it.At h cs →
    ∃ it', it.drive k h = .ok ((List.range k).map (fun i => cs[i]?), it') h ∧ it'.At h (cs.drop k) := by
  intro k
  induction k with
  | zero => intro it cs hA; exact ⟨it, rfl, by simpa using hA⟩
  | succ k ih =>
    intro it cs hA
    cases cs with
    | nil =>
      obtain ⟨it', e, hA'⟩ := ih hA
      refine ⟨it', ?_, by simpa using hA'⟩
      simp only [RawIter.drive, M.bind_apply, hA.next_nil, Res.bind_ok, e, M.pure_apply]
      simp [List.range_succ_eq_map, Function.comp_def]
    | cons c cs =>
      obtain ⟨it', e, hA'⟩ := hA.next_cons
      obtain ⟨it2, e2, hA2⟩ := ih hA'
      refine ⟨it2, ?_, by simpa using hA2⟩
      simp only [RawIter.drive, M.bind_apply, e, Res.bind_ok, e2, M.pure_apply]
      simp [List.range_succ_eq_map, Function.comp_def]

end Proof

section
variable {m : Machine α} (hr : Reachable m)
include hr

/-! ### C06 -/

/-- **C06** `degree()`, `has_no_child()` and `node_count()` of any node of a tree or forest below the
root: exactly those of the subtree `s` that is there. -/
theorem c06_child {x : Var} {q : Path} {i : Nat} {v : Val α} {s : RTree α} (hx : m.view x = some v)
    (hv : v.isIter = false) (hs : v.at? (.child q i) = some s) :
    (∃ m', step m (.degree x (q ++ [i])) = .ok m' (.nat s.kids.length) ∧ m'.store = m.store) ∧
    (∃ m', step m (.hasNoChild x (q ++ [i])) = .ok m' (.bool (s.kids.length == 0)) ∧ m'.store = m.store) ∧
    (∃ m', step m (.nodeCount x (q ++ [i])) = .ok m' (.nat s.count) ∧ m'.store = m.store) := by
  have hx' : m.store.vars x = some v := hx
  simp only [Val.at?] at hs
  have hk : kidsAt v.kids (q ++ [i]) = some s.kids := by
    rw [kidsAt_append]
    cases h : kidsAt v.kids q with
    | none => rw [h] at hs; simp at hs
    | some us => rw [h] at hs; simp at hs; simp [kidsAt, hs]
  have hne : q ++ [i] ≠ [] := by simp
  have hcnt : s.count = RTree.countL s.kids + 1 := by cases s; simp [RTree.count, RTree.kids, Nat.add_comm]
  refine ⟨?_, ?_, ?_⟩
  · obtain ⟨m', h1, h2, _⟩ := step_ok hr (op := .degree x (q ++ [i])) (by
      simp only [specStep, Store.onKids, hx', hv, hk]; rfl)
    exact ⟨m', h1, h2⟩
  · obtain ⟨m', h1, h2, _⟩ := step_ok hr (op := .hasNoChild x (q ++ [i])) (by
      simp only [specStep, Store.onKids, hx', hv, hk]; rfl)
    refine ⟨m', ?_, h2⟩
    rw [h1]; cases s.kids <;> rfl
  · obtain ⟨m', h1, h2, _⟩ := step_ok hr (op := .nodeCount x (q ++ [i])) (by
      simp only [specStep, Store.onKids, hx', hv, hk]; rfl)
    refine ⟨m', ?_, h2⟩
    rw [h1, hcnt]
    cases q <;> cases v <;> rfl

/-- **C06** the same at the root of a tree. -/
theorem c06_tree {x : Var} {t : RTree α} (hx : m.view x = some (.tree t)) :
    (∃ m', step m (.degree x []) = .ok m' (.nat t.kids.length) ∧ m'.store = m.store) ∧
    (∃ m', step m (.hasNoChild x []) = .ok m' (.bool (t.kids.length == 0)) ∧ m'.store = m.store) ∧
    (∃ m', step m (.nodeCount x []) = .ok m' (.nat t.count) ∧ m'.store = m.store) := by
  have hx' : m.store.vars x = some (.tree t) := hx
  have hcnt : t.count = RTree.countL t.kids + 1 := by cases t; simp [RTree.count, RTree.kids, Nat.add_comm]
  refine ⟨?_, ?_, ?_⟩
  · obtain ⟨m', h1, h2, _⟩ := step_ok hr (op := .degree x []) (by
      simp only [specStep, Store.onKids, hx', Val.isIter, kidsAt]; rfl)
    exact ⟨m', h1, h2⟩
  · obtain ⟨m', h1, h2, _⟩ := step_ok hr (op := .hasNoChild x []) (by
      simp only [specStep, Store.onKids, hx', Val.isIter, kidsAt]; rfl)
    refine ⟨m', ?_, h2⟩
    rw [h1]; simp only [Val.kids]; cases t.kids <;> rfl
  · obtain ⟨m', h1, h2, _⟩ := step_ok hr (op := .nodeCount x []) (by
      simp only [specStep, Store.onKids, hx', Val.isIter, kidsAt]; rfl)
    refine ⟨m', ?_, h2⟩
    rw [h1, hcnt]; rfl

/-- **C06** the same for a forest: number of trees, number of all nodes. -/
theorem c06_forest {x : Var} {ts : List (RTree α)} (hx : m.view x = some (.forest ts)) :
    (∃ m', step m (.degree x []) = .ok m' (.nat ts.length) ∧ m'.store = m.store) ∧
    (∃ m', step m (.hasNoChild x []) = .ok m' (.bool (ts.length == 0)) ∧ m'.store = m.store) ∧
    (∃ m', step m (.nodeCount x []) = .ok m' (.nat (RTree.countL ts)) ∧ m'.store = m.store) := by
  have hx' : m.store.vars x = some (.forest ts) := hx
  refine ⟨?_, ?_, ?_⟩
  · obtain ⟨m', h1, h2, _⟩ := step_ok hr (op := .degree x []) (by
      simp only [specStep, Store.onKids, hx', Val.isIter, kidsAt]; rfl)
    exact ⟨m', h1, h2⟩
  · obtain ⟨m', h1, h2, _⟩ := step_ok hr (op := .hasNoChild x []) (by
      simp only [specStep, Store.onKids, hx', Val.isIter, kidsAt]; rfl)
    refine ⟨m', ?_, h2⟩
    rw [h1]; simp only [Val.kids]; cases ts <;> rfl
  · obtain ⟨m', h1, h2, _⟩ := step_ok hr (op := .nodeCount x []) (by
      simp only [specStep, Store.onKids, hx', Val.isIter, kidsAt]; rfl)
    exact ⟨m', h1, h2⟩

/-! ### C07 -/

/-- **C07** `parent()` of the node at `q ++ [i]` is the very node (same address) at `q`, except that
the top-level nodes of a forest have no parent. -/
theorem c07_parent_child {x : Var} {q : Path} {i : Nat} {v : Val α} {c : Addr} (hx : m.view x = some v)
    (hv : v.isIter = false) (hc : m.nodeAt x (q ++ [i]) = some c) :
    parent c m.heap = .ok (match q, v with
      | [], .forest _ => none
      | _, _ => m.nodeAt x q) m.heap := by
  obtain ⟨K, M⟩ := Proof.reachable_minv hr
  have hA := M.abs_store.vars x
  cases he : m.env x with
  | none => simp [Machine.view, he] at hx
  | some hd =>
    rw [he] at hA
    obtain ⟨w, e, hw⟩ := hA
    have : w = v := by
      have : m.store.vars x = some v := hx
      rw [e] at this; exact Option.some.inj this
    subst this
    have ho := M.hnd x hd he
    simp only [Machine.nodeAt, he, locate_ok M.inv ho.used] at hc ⊢
    rw [resolve_append] at hc
    cases hu : resolve K hd.addr q with
    | none => rw [hu] at hc; simp at hc
    | some u =>
      rw [hu] at hc
      simp only [Option.bind_some, resolve] at hc
      have hm : c ∈ K u := by
        cases hk : (K u)[i]? with
        | none => rw [hk] at hc; simp at hc
        | some c' =>
          rw [hk] at hc; simp at hc; subst hc
          exact List.mem_of_getElem? hk
      rw [parent_ok M.inv (M.inv.used_of_mem hm) M.kv, M.inv.up_of_mem hm]
      cases q with
      | nil =>
        simp only [resolve, Option.some.injEq] at hu
        subst hu
        have hk := ho.kind
        cases hd <;> cases w <;> simp only [HDen] at hw
        · simp only [HKind] at hk; simp [Handle.addr, hk.notForest]
        · simp only [HKind] at hk
          have hf := (isForest_iff M.st ho.used).mpr hk
          simp only [Handle.addr] at hf
          simp [Handle.addr, hf]
        · simp [Val.isIter] at hv
      | cons j q =>
        have hup : ∃ b, u ∈ K b := by
          have hr := resolve_reach hu
          rcases hr.cases_tail with e | ⟨b, _, h2⟩
          · exfalso
            have h0 := hu
            simp only [resolve] at h0
            cases hj : (K hd.addr)[j]? with
            | none => rw [hj] at h0; simp at h0
            | some d =>
              rw [hj] at h0
              have h3 : Reach K d u := resolve_reach h0
              exact M.inv.not_reach_up (List.mem_of_getElem? hj) (e ▸ h3)
          · exact ⟨b, h2⟩
        obtain ⟨b, hb⟩ := hup
        simp [(M.kv b u hb).notForest]

/-- **C07** `parent()` of the root of a tree is `None`. -/
theorem c07_parent_root {x : Var} {t : RTree α} {r : Addr} (hx : m.view x = some (.tree t))
    (hc : m.nodeAt x [] = some r) : parent r m.heap = .ok none m.heap := by
  obtain ⟨K, M⟩ := Proof.reachable_minv hr
  obtain ⟨hd, n, h1, a⟩ := Proof.nodeAt_at M (p := []) hx rfl
  rw [hc] at h1
  obtain rfl := Option.some.inj h1
  have := a.res
  simp only [resolve, Option.some.injEq] at this
  subst this
  have ho := M.hnd x hd a.env
  rw [parent_ok M.inv ho.used M.kv, ho.root]

/-! ### C08 -/

/-- **C08** the iterator of the node at `p`: there are addresses `cs`, one per child, the `i`-th being
the node at `p ++ [i]` and holding the data of the `i`-th child; calling `next()` any number `k` of times returns
them in order and then `None` forever; `len()` (and `size_hint`) is exactly what is left. -/
theorem c08_iter {x : Var} {p : Path} {v : Val α} {us : List (RTree α)} (hx : m.view x = some v)
    (hv : v.isIter = false) (hp : kidsAt v.kids p = some us) :
    ∃ n it cs, m.nodeAt x p = some n ∧ iter n m.heap = .ok it m.heap ∧ it.len = us.length ∧
      cs.length = us.length ∧ cs.Nodup ∧
      (∀ i, cs[i]? = m.nodeAt x (p ++ [i])) ∧
      (readMany dataRef cs m.heap = .ok (us.map RTree.data) m.heap) ∧
      (∀ k, ∃ it', it.drive k m.heap = .ok ((List.range k).map (fun i => cs[i]?), it') m.heap ∧
        it'.len = us.length - k) ∧
      front n m.heap = .ok cs.head? m.heap ∧ back n m.heap = .ok cs.getLast? m.heap := by
  obtain ⟨K, M⟩ := Proof.reachable_minv hr
  obtain ⟨hd, n, h1, a⟩ := Proof.nodeAt_at M hx hp
  have hn := a.used M
  obtain ⟨it, e, hA⟩ := iter_at M.inv hn
  have hlen := a.kden.length
  refine ⟨n, it, K n, h1, e, by rw [hA.1, hlen], hlen, M.inv.l.nodup n, ?_, ?_, ?_, ?_, ?_⟩
  · intro i; exact (Proof.nodeAt_child M a i).symm
  · have := a.kden
    have hl : ∀ c ∈ K n, m.heap.live c = true := fun c hc => (M.inv.used_of_mem hc).1
    revert this hl
    generalize K n = cs
    intro hden hl
    clear hlen hp a
    induction cs generalizing us with
    | nil => cases us with
      | nil => rfl
      | cons u us => simp [DenL] at hden
    | cons c cs ih => cases us with
      | nil => simp [DenL] at hden
      | cons u us =>
        have h2 := den_val hden.1
        have h3 := ih hden.2 (fun c hc => hl c (by simp [hc]))
        simp only [readMany, Trees.M.bind_apply, dataRef_ok (hl c (by simp)) h2, Res.bind_ok, h3]
        rfl
  · intro k
    obtain ⟨it', e', hA'⟩ := Proof.drive_ok k hA
    exact ⟨it', e', by rw [hA'.1]; simp [hlen]⟩
  · exact getHead_K M.inv hn
  · exact getTail_K M.inv hn

/-- **C08** what a client sees: the data of all children in order, of the first and of the last. -/
theorem c08_data {x : Var} {p : Path} {v : Val α} {us : List (RTree α)} (hx : m.view x = some v)
    (hv : v.isIter = false) (hp : kidsAt v.kids p = some us) :
    (∃ m', step m (.childData x p) = .ok m' (.items (us.map RTree.data)) ∧ m'.store = m.store) ∧
    (∃ m', step m (.frontData x p) = .ok m' (.item (us.head?.map RTree.data)) ∧ m'.store = m.store) ∧
    (∃ m', step m (.backData x p) = .ok m' (.item (us.getLast?.map RTree.data)) ∧ m'.store = m.store) := by
  have hx' : m.store.vars x = some v := hx
  refine ⟨?_, ?_, ?_⟩
  · obtain ⟨m', h1, h2, _⟩ := step_ok hr (op := .childData x p) (by
      simp only [specStep, Store.onKids, hx', hv, hp]; rfl)
    exact ⟨m', h1, h2⟩
  · obtain ⟨m', h1, h2, _⟩ := step_ok hr (op := .frontData x p) (by
      simp only [specStep, Store.onKids, hx', hv, hp]; rfl)
    exact ⟨m', h1, h2⟩
  · obtain ⟨m', h1, h2, _⟩ := step_ok hr (op := .backData x p) (by
      simp only [specStep, Store.onKids, hx', hv, hp]; rfl)
    exact ⟨m', h1, h2⟩

/-! ### C13 -/

omit hr in
/-- What an owning iterator over a value has to hand out. -/
def Val.trees : Val α → List (RTree α)
  | .tree t => [t]
  | .forest ts => ts
  | .iter ts => ts

/-- **C13** `into_iter()`: of a forest, an iterator over its trees; of a tree, over the tree itself. -/
theorem c13_intoIter {x : Var} {v : Val α} (hx : m.view x = some v) (hv : v.isIter = false) :
    ∃ m', step m (.intoIter x) = .ok m' (.var m.fresh) ∧ Reachable m' ∧ m'.view x = none ∧
      m'.view m.fresh = some (.iter v.trees) ∧
      (∀ z, z ≠ x → z ≠ m.fresh → m'.view z = m.view z) ∧ m'.store.dropped = m.store.dropped := by
  have hx' : m.store.vars x = some v := hx
  have hxf := fresh_ne_of_view hr hx
  have hf : m.store.fresh = m.fresh := rfl
  obtain ⟨m', h1, h2, h3⟩ := step_ok hr (op := .intoIter x) (S := (m.store.set x none).bind (.iter v.trees)) (o := .var m.fresh) (by
    cases v <;> simp [Val.isIter] at hv <;> simp only [specStep, hx'] <;> rfl)
  have hvw : m'.view = m'.store.vars := rfl
  refine ⟨m', h1, h3, ?_, ?_, ?_, ?_⟩
  · rw [hvw, h2]; simp [Store.set, Store.bind, hxf, hf]
  · rw [hvw, h2]; simp [Store.set, Store.bind, hf]
  · intro z hz1 hz2; rw [hvw, h2]; simp [Store.set, Store.bind, hz1, hz2, hf]; rfl
  · rw [h2]; rfl

/-- **C13** `len()` is the number of trees left. -/
theorem c13_len {x : Var} {ts : List (RTree α)} (hx : m.view x = some (.iter ts)) :
    ∃ m', step m (.iterLen x) = .ok m' (.nat ts.length) ∧ m'.store = m.store := by
  have hx' : m.store.vars x = some (.iter ts) := hx
  obtain ⟨m', h1, h2, _⟩ := step_ok hr (op := .iterLen x) (by simp only [specStep, hx']; rfl)
  exact ⟨m', h1, h2⟩

/-- **C13** calling `next()` repeatedly on an owning iterator hands out its trees one by one, in order,
as independent trees in new variables, then `None` (with no effect). -/
theorem c13_next {x : Var} {ts : List (RTree α)} (hx : m.view x = some (.iter ts)) :
    match ts with
    | [] => ∃ m', step m (.iterNext x) = .ok m' .none ∧ m'.store = m.store
    | t :: ts => ∃ m', step m (.iterNext x) = .ok m' (.var m.fresh) ∧ Reachable m' ∧
        m'.view x = some (.iter ts) ∧ m'.view m.fresh = some (.tree t) ∧
        (∀ z, z ≠ x → z ≠ m.fresh → m'.view z = m.view z) ∧ m'.store.dropped = m.store.dropped := by
  have hx' : m.store.vars x = some (.iter ts) := hx
  have hxf := fresh_ne_of_view hr hx
  have hf : m.store.fresh = m.fresh := rfl
  cases ts with
  | nil =>
    obtain ⟨m', h1, h2, _⟩ := step_ok hr (op := .iterNext x) (by simp only [specStep, hx']; rfl)
    exact ⟨m', h1, h2⟩
  | cons t ts =>
    obtain ⟨m', h1, h2, h3⟩ := step_ok hr (op := .iterNext x) (by simp only [specStep, hx']; rfl)
    have hvw : m'.view = m'.store.vars := rfl
    refine ⟨m', h1, h3, ?_, ?_, ?_, ?_⟩
    · rw [hvw, h2]; simp [Store.set, Store.bind, hxf, hf]
    · rw [hvw, h2]; simp [Store.set, Store.bind, hf]
    · intro z hz1 hz2; rw [hvw, h2]; simp [Store.set, Store.bind, hz1, hz2, hf]; rfl
    · rw [h2]; rfl

end

/-- **C13** for any number `k` of `next()` calls followed by dropping the iterator: the first `k` trees are in the new
variables, exactly the data of the others has been dropped, children before parents. -/
theorem c13_drop_midway {x : Var} : ∀ (k : Nat) {m : Machine α} (hr : Reachable m) {ts : List (RTree α)},
    m.view x = some (.iter ts) → k ≤ ts.length →
    ∃ m', (exec step m (List.replicate k (.iterNext x) ++ [.drop x])).1 = m' ∧ Reachable m' ∧ m'.view x = none ∧
      (∀ i, i < k → m'.view (m.fresh + i) = (ts[i]?).map Val.tree) ∧
      (∀ z, z ≠ x → z < m.fresh → m'.view z = m.view z) ∧
      m'.store.dropped = m.store.dropped ++ RTree.postL (ts.drop k) := by
  intro k
  induction k with
  | zero =>
    intro m hr ts hx _
    have hx' : m.store.vars x = some (.iter ts) := hx
    obtain ⟨m', h1, h2, h3⟩ := step_ok hr (op := .drop x) (by simp only [specStep, hx']; rfl)
    have hvw : m'.view = m'.store.vars := rfl
    refine ⟨m', by simp [exec, h1], h3, ?_, by omega, ?_, ?_⟩
    · rw [hvw, h2]; simp [Store.drop, Store.set]
    · intro z hz _; rw [hvw, h2]; simp [Store.drop, Store.set, hz]; rfl
    · rw [h2]; simp [Store.drop, Store.set, Val.post]
  | succ k ih =>
    intro m hr ts hx hk
    have hxf := fresh_ne_of_view hr hx
    have hn := c13_next hr hx
    cases ts with
    | nil => simp at hk
    | cons t ts =>
      obtain ⟨m1, h1, h2, h3, h4, h5, h6⟩ := hn
      have hfr : m1.fresh = m.fresh + 1 := by
        have h7 := c10_step hr (.iterNext x)
        rw [h1] at h7
        have hx' : m.store.vars x = some (.iter (t :: ts)) := hx
        simp only [specStep, hx', Outcome.map, Outcome.ok.injEq] at h7
        have := congrArg Store.fresh h7.1
        exact this
      have hxl : x < m.fresh := by
        obtain ⟨K, M⟩ := Proof.reachable_minv hr
        rcases Nat.lt_or_ge x m.fresh with h | h
        · exact h
        · have := M.fr x h
          simp [Machine.view, this] at hx
      obtain ⟨m2, g1, g2, g3, g4, g5, g6⟩ := ih h2 h3 (by simpa using hk)
      refine ⟨m2, ?_, g2, g3, ?_, ?_, ?_⟩
      · rw [← g1, List.replicate_succ]; simp [exec, h1]
      · intro i hi
        cases i with
        | zero =>
          rw [g5 (m.fresh + 0) (Nat.ne_of_gt hxl) (by rw [hfr]; exact Nat.lt_succ_self _)]
          simpa using h4
        | succ i =>
          have := g4 i (by omega)
          rw [hfr, Nat.add_assoc, Nat.add_comm 1 i] at this
          simpa using this
      · intro z hz hz2
        rw [g5 z hz (by rw [hfr]; exact Nat.lt_succ_of_lt hz2)]
        exact h5 z hz (Nat.ne_of_lt hz2)
      · rw [g6, h6]; simp

/-! ### Non-vacuity -/

/-- A demo state with a deeper tree: `0(1(5) 2)` in variable 0, `3` in variable 3, an owning iterator over `[6, 7]` in
variable 10. -/
def demo2Ops : List (Op Nat) := demoOps ++
  [.treeNew 5, .pushBack 0 [0] 4, .forestNew, .treeNew 6, .treeNew 7, .pushBack 5 [] 6, .pushBack 5 [] 7, .intoIter 5]

def demo2 : Machine Nat := (exec step Machine.empty demo2Ops).1

theorem demo2_reachable : Reachable demo2 := exec_reachable _

theorem demo2_store : demo2.store = (exec specStep Store.empty demo2Ops).1 := (c10_programs demo2Ops).2
theorem demo2_view0 : demo2.view 0 = some (.tree (.node 0 [.node 1 [.node 5 []], .node 2 []])) :=
  (congrArg (fun s => s.vars 0) demo2_store).trans rfl
theorem demo2_view8 : demo2.view 8 = some (.iter [.node 6 [], .node 7 []]) :=
  (congrArg (fun s => s.vars 8) demo2_store).trans rfl
/-- C06/C07/C08 hypotheses at the inner node `1(5)`. -/
example : Val.at? (.tree (.node 0 [.node 1 [.node 5 []], .node 2 []])) (.child [] 0) = some (.node 1 [.node 5 []]) ∧
    (demo.nodeAt 0 [1]).isSome ∧ (demo.nodeAt 0 []).isSome := by
  refine ⟨rfl, rfl, rfl⟩
/-- C13 on the demo state: one `next`, then drop: `7` is dropped. -/
example : ∃ m', (exec step demo2 [.iterNext 8, .drop 8]).1 = m' ∧ m'.store.dropped = [7] := by
  obtain ⟨m', h1, _, _, _, _, h2⟩ := c13_drop_midway 1 demo2_reachable demo2_view8 (by simp)
  refine ⟨m', h1, h2.trans ?_⟩
  rw [demo2_store]; rfl

end Trees
