import Verif.Proof.RcOwn
/-
Histories that avoid the defects of the crate stay well-behaved.
-/
namespace Trees
set_option linter.unusedSimpArgs false
set_option linter.unusedVariables false
variable {α β γ : Type}
open Classical

/-- The new state is good, and every handle that has not been taken away still refers to its node. -/
structure Kept (m : RMachine α) (op : ROp α) (m' : RMachine α) : Prop where
  si : SI m'
  keep : ∀ j a, m.nodeOf j = some a → ¬ op.Consumes j → m'.nodeOf j = some a

/-- A call neither runs into undefined behaviour nor leaves a broken state. -/
def GoodOut (m : RMachine α) (op : ROp α) : Outcome (RMachine α) α → Prop
  | .ok m' _ => Kept m op m'
  | .panic m' => Kept m op m'
  | .rejected => True
  | .bad => False

section
variable {m : RMachine α} {G : Heap α} {K : Addr → List Addr} {T : Var → Option Addr}

theorem Kept.self {op : ROp α} (hm : SI m) : Kept m op m := ⟨hm, fun _ _ h _ => h⟩

theorem Kept.of_look {op : ROp α} {m' : RMachine α} (hm : SI m') (h : ∀ j, ¬ op.Consumes j → m.look j ≠ none → m'.look j = m.look j) : Kept m op m' :=
  ⟨hm, fun j a ha hc => by
    simp only [RMachine.nodeOf, Option.map_eq_some_iff] at ha ⊢
    obtain ⟨t, ht, e⟩ := ha
    exact ⟨t, by rw [h j hc (by rw [ht]; simp), ht], e⟩⟩

theorem Kept.of_map {op : ROp α} {m' : RMachine α} {f : RTree (Addr × α) → RTree (Addr × α)} (hm : SI m') (hf : ∀ t, (f t).data.1 = t.data.1)
    (h : ∀ j, m.look j ≠ none → m'.look j = (m.look j).map f) : Kept m op m' :=
  ⟨hm, fun j a ha hc => by
    simp only [RMachine.nodeOf, Option.map_eq_some_iff] at ha ⊢
    obtain ⟨t, ht, e⟩ := ha
    exact ⟨f t, by rw [h j (by rw [ht]; simp), ht]; rfl, by rw [hf, e]⟩⟩

theorem RTree.modAt_root {ι : Type} [DecidableEq ι] (a : ι) (f) (t : RTree (ι × α)) : (RTree.modAt a f t).data.1 = t.data.1 := by cases t; simp [RTree.modAt, RTree.data]
theorem RTree.sibAt_root {ι : Type} [DecidableEq ι] (a : ι) (f) (t : RTree (ι × α)) : (RTree.sibAt a f t).data.1 = t.data.1 := by cases t; simp [RTree.sibAt, RTree.data]
theorem RTree.setAt_root {ι : Type} [DecidableEq ι] (a : ι) (d : α) (t : RTree (ι × α)) : (RTree.setAt a d t).data.1 = t.data.1 := by
  cases t with
  | node x ts =>
    simp only [RTree.setAt, RTree.data]
    split
    · rename_i h; rw [h]
    · rfl

theorem look_fresh (hm : SI m) : m.look m.fresh = none := by
  obtain ⟨G, K, T, I, B⟩ := hm
  exact I.look_none.mpr (I.tnone (Nat.le_refl _))

theorem Adds.good {op : ROp α} {m' : RMachine α} (hm : SI m) (h : Adds m m') : Kept m op m' :=
  .of_look h.si fun j _ hj => h.looks j fun e => hj (e ▸ look_fresh hm)
theorem Yields.good {op : ROp α} {m' : RMachine α} {i : Var} (hm : SI m) (h : Yields m m' i) : Kept m op m' :=
  .of_look h.si fun j _ hj => h.looks j fun e => hj (e ▸ look_fresh hm)
theorem Loses.good {op : ROp α} {m' : RMachine α} {k : Var} (h : Loses m m' k) : Kept m op m' := .of_look h.si fun j _ _ => h.looks j
theorem Takes.good {op : ROp α} {m' : RMachine α} {f} (hm : SI m) (hf : ∀ t, (f t).data.1 = t.data.1) (h : Takes m m' f) : Kept m op m' :=
  .of_map h.si hf fun j hj => h.looks j fun e => hj (e ▸ look_fresh hm)
theorem Edits.good {op : ROp α} {m' : RMachine α} {f lg} (hf : ∀ t, (f t).data.1 = t.data.1) (h : Edits m m' f lg) : Kept m op m' :=
  .of_map h.si hf fun j _ => h.looks j

theorem si_ref (hm : SI m) {k : Var} {r : RcRef} (h : m.refs k = some (.rc r)) : ∃ t, m.look k = some t := by
  obtain ⟨G, K, T, I, B⟩ := hm
  obtain ⟨a, h1, h2⟩ := I.rcs k r h
  obtain ⟨t, ht⟩ := I.den h1
  exact ⟨t, I.look_of h1 ht⟩

theorem look_ref {k : Var} {t : RTree (Addr × α)} (h : m.look k = some t) : ∃ r, m.refs k = some (.rc r) := by
  simp only [RMachine.look] at h
  split at h
  · rename_i r hr; exact ⟨r, hr⟩
  · simp at h

/-- Either `k` holds no handle, or it shows a tree. -/
theorem good_onRc (hm : SI m) {k : Var} {f : RcRef → Outcome (RMachine α) α} {op : ROp α}
    (h : ∀ t, m.look k = some t → GoodOut m op (m.onRc k f)) : GoodOut m op (m.onRc k f) := by
  cases hl : m.look k with
  | some t => exact h t hl
  | none =>
    have : m.onRc k f = .rejected := by
      simp only [RMachine.onRc]
      split
      · rename_i r hr
        obtain ⟨t, ht⟩ := si_ref hm hr
        rw [hl] at ht; simp at ht
      · rfl
    rw [this]; trivial

theorem good_call (hm : SI m) {k : Var} {c : RcRef → M α β} {o : β → Out α} {op : ROp α}
    (h : ∀ t, m.look k = some t → GoodOut m op (m.call k c o)) : GoodOut m op (m.call k c o) := good_onRc hm h

theorem good_takeTree (hm : SI m) {y : Var} {f : Addr → Outcome (RMachine α) α} {op : ROp α}
    (h : ∀ a t, m.env y = some (.tree a) → m.lookTree y = some t → GoodOut m op (m.takeTree y f)) : GoodOut m op (m.takeTree y f) := by
  by_cases hy : ∃ a, m.env y = some (.tree a)
  · obtain ⟨a, hy⟩ := hy
    obtain ⟨G, K, T, I, B⟩ := id hm
    have ho := I.hnd y _ hy
    obtain ⟨t, ht⟩ := exists_lab I.inv I.kv ho.used ho.kind
    exact h a t hy (I.lookTree_iff.mpr ⟨a, hy, ht⟩)
  · have : m.takeTree y f = .rejected := by
      simp only [RMachine.takeTree]
      split
      · rename_i t ht; exact absurd ⟨t, ht⟩ hy
      · rfl
    rw [this]; trivial

theorem good_takeForest (hm : SI m) {y : Var} {f : Addr → Outcome (RMachine α) α} {op : ROp α}
    (h : ∀ a ts, m.env y = some (.forest a) → m.lookForest y = some ts → GoodOut m op (m.takeForest y f)) : GoodOut m op (m.takeForest y f) := by
  by_cases hy : ∃ a, m.env y = some (.forest a)
  · obtain ⟨a, hy⟩ := hy
    obtain ⟨G, K, T, I, B⟩ := id hm
    have ho := I.hnd y _ hy
    obtain ⟨t, ht⟩ := exists_labL I.inv I.kv ho.used
    exact h a t hy (I.lookForest_iff.mpr ⟨a, hy, ht⟩)
  · have : m.takeForest y f = .rejected := by
      simp only [RMachine.takeForest]
      split
      · rename_i t ht; exact absurd ⟨t, ht⟩ hy
      · rfl
    rw [this]; trivial

theorem ArgPanics.good {y : Var} {o : Outcome (RMachine α) α} {op : ROp α} (h : ArgPanics m y o) : GoodOut m op o := by
  obtain ⟨m', v, rfl, h, -, hl, -⟩ := h; exact .of_look h fun j _ _ => hl j

/-- A consuming call while there is a guard. -/
theorem si_arg_conflict (hm : SI m) {k y : Var} {a : Addr} {hd : Handle} {w : Bool} {f : Addr → M α Unit} (hk : m.nodeOf k = some a)
    (hg : m.Guarded a w) (hy : m.env y = some hd) (hi : hd.isIter = false) : ArgPanics m y (m.consume k y fun r => withMutArg r hd.addr f) := by
  obtain ⟨G, K, T, I, B⟩ := hm
  rw [I.nodeOf] at hk
  exact I.consume_conflict B hk hg hy hi

theorem consume_none {k y : Var} {c : RcRef → M α Unit} (hm : SI m) (h : m.look k = none) : m.consume k y c = .rejected := by
  simp only [RMachine.consume, RMachine.onRc]
  split
  · rename_i r hr
    obtain ⟨t, ht⟩ := si_ref hm hr
    rw [h] at ht; simp at ht
  · rfl

theorem si_pushBack_conflict (hm : SI m) {k y : Var} {a r : Addr} {w : Bool} (hk : m.nodeOf k = some a) (hg : m.Guarded a w) (hy : m.env y = some (.tree r)) :
    ArgPanics m y (rstep m (.pushBack k y)) := by
  have := si_arg_conflict hm hk hg hy rfl (f := fun a => pushBack a r)
  simp only [rstep, RMachine.takeTree, hy]; exact this

theorem si_pushFront_conflict (hm : SI m) {k y : Var} {a r : Addr} {w : Bool} (hk : m.nodeOf k = some a) (hg : m.Guarded a w) (hy : m.env y = some (.tree r)) :
    ArgPanics m y (rstep m (.pushFront k y)) := by
  have := si_arg_conflict hm hk hg hy rfl (f := fun a => pushFront a r)
  simp only [rstep, RMachine.takeTree, hy]; exact this

theorem si_insertPrevSib_conflict (hm : SI m) {k y : Var} {a r : Addr} {w : Bool} (hk : m.nodeOf k = some a) (hg : m.Guarded a w) (hy : m.env y = some (.tree r)) :
    ArgPanics m y (rstep m (.insertPrevSib k y)) := by
  have := si_arg_conflict hm hk hg hy rfl (f := fun a => insertPrevSib a r)
  simp only [rstep, RMachine.takeTree, hy]; exact this

theorem si_insertNextSib_conflict (hm : SI m) {k y : Var} {a r : Addr} {w : Bool} (hk : m.nodeOf k = some a) (hg : m.Guarded a w) (hy : m.env y = some (.tree r)) :
    ArgPanics m y (rstep m (.insertNextSib k y)) := by
  have := si_arg_conflict hm hk hg hy rfl (f := fun a => insertNextSib a r)
  simp only [rstep, RMachine.takeTree, hy]; exact this

theorem si_append_conflict (hm : SI m) {k y : Var} {a r : Addr} {w : Bool} (hk : m.nodeOf k = some a) (hg : m.Guarded a w) (hy : m.env y = some (.forest r)) :
    ArgPanics m y (rstep m (.append k y)) := by
  have := si_arg_conflict hm hk hg hy rfl (f := fun a => append a r)
  simp only [rstep, RMachine.takeForest, hy]; exact this

theorem si_prepend_conflict (hm : SI m) {k y : Var} {a r : Addr} {w : Bool} (hk : m.nodeOf k = some a) (hg : m.Guarded a w) (hy : m.env y = some (.forest r)) :
    ArgPanics m y (rstep m (.prepend k y)) := by
  have := si_arg_conflict hm hk hg hy rfl (f := fun a => prepend a r)
  simp only [rstep, RMachine.takeForest, hy]; exact this

theorem si_insertPrevSib_root (hm : SI m) {k y : Var} {a r : Addr} (hk : m.nodeOf k = some a) (hg : ∀ w, ¬ m.Guarded a w) (hy : m.env y = some (.tree r)) (hp : ¬ m.HasParent a) :
    ArgPanics m y (rstep m (.insertPrevSib k y)) := by
  obtain ⟨G, K, T, I, B⟩ := hm
  rw [I.nodeOf] at hk
  obtain ⟨ha, hx⟩ := (I.tgt k a hk).2
  rw [I.hasParent ha hx] at hp
  have := I.insert_root B hk hg hy (f := fun a => insertPrevSib a r) ?_ (by simpa using hp)
  · simp only [rstep, RMachine.takeTree, hy]; exact this
  · intro h h' h1 h2 h3
    simp only [insertPrevSib, M.bind_apply, getUp_ok h1, Res.bind_ok, h2, h3, M.throw]

theorem si_insertNextSib_root (hm : SI m) {k y : Var} {a r : Addr} (hk : m.nodeOf k = some a) (hg : ∀ w, ¬ m.Guarded a w) (hy : m.env y = some (.tree r)) (hp : ¬ m.HasParent a) :
    ArgPanics m y (rstep m (.insertNextSib k y)) := by
  obtain ⟨G, K, T, I, B⟩ := hm
  rw [I.nodeOf] at hk
  obtain ⟨ha, hx⟩ := (I.tgt k a hk).2
  rw [I.hasParent ha hx] at hp
  have := I.insert_root B hk hg hy (f := fun a => insertNextSib a r) ?_ (by simpa using hp)
  · simp only [rstep, RMachine.takeTree, hy]; exact this
  · intro h h' h1 h2 h3
    simp only [insertNextSib, M.bind_apply, getUp_ok h1, Res.bind_ok, h2, h3, M.throw]

theorem si_prevSib (hm : SI m) {k y : Var} {a : Addr} {t : RTree (Addr × α)} (hk : m.nodeOf k = some a) (hy : m.lookTree y = some t)
    (hg : ∀ w, ¬ m.Guarded a w) (hp : m.HasParent a) :
    ∃ m', rstep m (.insertPrevSib k y) = .ok m' .unit ∧ SI m' ∧ m'.refs = m.refs ∧ m'.excl.store = m.excl.store.set y none ∧
      ∀ j, m'.look j = (m.look j).map (RTree.sibAt a fun s => [t, s]) := by
  refine si_insertPrevSib hm hk hy hg ?_
  obtain ⟨G, K, T, I, B⟩ := hm
  rw [I.nodeOf] at hk
  obtain ⟨ha, hx⟩ := (I.tgt k a hk).2
  rw [I.hasParent ha hx] at hp
  rw [I.heap]; exact hp

theorem si_nextSib (hm : SI m) {k y : Var} {a : Addr} {t : RTree (Addr × α)} (hk : m.nodeOf k = some a) (hy : m.lookTree y = some t)
    (hg : ∀ w, ¬ m.Guarded a w) (hp : m.HasParent a) :
    ∃ m', rstep m (.insertNextSib k y) = .ok m' .unit ∧ SI m' ∧ m'.refs = m.refs ∧ m'.excl.store = m.excl.store.set y none ∧
      ∀ j, m'.look j = (m.look j).map (RTree.sibAt a fun s => [s, t]) := by
  refine si_insertNextSib hm hk hy hg ?_
  obtain ⟨G, K, T, I, B⟩ := hm
  rw [I.nodeOf] at hk
  obtain ⟨ha, hx⟩ := (I.tgt k a hk).2
  rw [I.hasParent ha hx] at hp
  rw [I.heap]; exact hp

/-- A step of an iterator with an arbitrary state. -/
theorem si_iterNext_shown (hm : SI m) {i : Var} {c : Addr} {n : Nat} (hi : m.refs i = some (.iter ⟨some c, n + 1⟩)) (hc : m.Shown c) :
    ∃ m' t, rstep m (.iterNext i) = .ok m' (.var m.fresh) ∧ Yields m m' i ∧ m'.look m.fresh = some t ∧ t.data.1 = c := by
  obtain ⟨G, K, T, I, B⟩ := hm
  obtain ⟨hu, hx⟩ := I.shown.mp hc
  have hv : G.IsVal c := by
    obtain ⟨k, r, h1, h2, h3⟩ := I.root_handle hu hx
    rcases h3.cases_tail with e | ⟨p, -, h4⟩
    · rw [← e]; exact I.isV h1
    · exact I.kv p c h4
  obtain ⟨m', t, e1, Y, e2, e3, e4⟩ := I.iterNext B hi hu hx hv
  exact ⟨m', t, e1, Y, e2, e3.root⟩

theorem good_iterNext (hm : SI m) {i : Var} (hs : Safe m (.iterNext i)) : GoodOut m (.iterNext i) (rstep m (.iterNext i)) := by
  by_cases hi : ∃ it, m.refs i = some (.iter it)
  · obtain ⟨⟨cu, n⟩, hi⟩ := hi
    cases n with
    | zero =>
      rw [si_iterNext_nil (m := m) (i := i) ⟨_, hi, rfl, by simp⟩]; exact .self hm
    | succ n =>
      cases cu with
      | some c =>
        obtain ⟨m', t, e, Y, -⟩ := si_iterNext_shown hm hi (hs c (List.replicate n 0) ⟨_, hi, by simp, by simp⟩)
        rw [e]; exact Y.good hm
      | none =>
        obtain ⟨G, K, T, I, B⟩ := hm
        have e : rstep m (.iterNext i) = .ok ⟨m.heap, m.env, upd m.refs i (some (.iter ⟨none, n⟩)), m.fresh⟩ .none := by
          simp [rstep, hi, RMachine.run, iterRcNext, M.bind_apply, RawIter.next, uncountedNext, RMachine.retRc]
        rw [e]
        obtain ⟨I1, B1⟩ := I.iter_same B (it' := ⟨none, n⟩) hi
        refine .of_look ⟨G, K, T, I1, B1⟩ fun j _ _ => I.look_congr I1 rfl fun _ _ _ _ => ⟨rfl, rfl⟩
  · have : rstep m (.iterNext i) = .rejected := by
      simp only [rstep]
      split
      · rename_i it h; exact absurd ⟨it, h⟩ hi
      · rfl
    rw [this]; trivial

theorem guarded_node (hm : SI m) {k : Var} {t : RTree (Addr × α)} (hk : m.look k = some t) {g : Var} {a : Addr} {w : Bool} (h : m.refs g = some (.guard k a w)) : a = t.data.1 := by
  obtain ⟨t', h1, h2⟩ := si_guard hm h
  rw [hk] at h1; cases h1; exact h2.symm

theorem good_drop (hm : SI m) {k : Var} : GoodOut m (.drop k) (rstep m (.drop k)) := by
  cases h : m.refs k with
  | none => simp only [rstep, h]; trivial
  | some r =>
    cases r with
    | rc r =>
      obtain ⟨t, ht⟩ := si_ref hm h
      by_cases hg : m.guarded k = true
      · simp only [rstep, h, hg, if_true]; trivial
      · obtain ⟨m', e, hs, -, -, -, hl, -⟩ := si_drop hm ht (by simpa using hg)
        rw [e]; exact .of_look hs fun j hj _ => hl j hj
    | weak r => obtain ⟨m', e, L⟩ := si_dropWeak hm h; rw [e]; exact L.good
    | guard j a w => obtain ⟨m', e, L⟩ := si_dropGuard hm h; rw [e]; exact L.good
    | iter it => obtain ⟨m', e, L⟩ := si_dropIter hm h; rw [e]; exact L.good

theorem si_intoTree_conflict (hm : SI m) {k : Var} {a : Addr} (hk : m.nodeOf k = some a) (hgm : m.Guarded a true) {m' : RMachine α} (hd : rstep m (.drop k) = .ok m' .unit) :
    rstep m (.intoTree k) = .panic m' := by
  obtain ⟨G, K, T, I, B⟩ := hm
  rw [I.nodeOf] at hk
  obtain ⟨r, h3, h4⟩ := I.ref hk
  have e1 := I.conflictS B hk h3 hgm
  simp only [rstep, h3] at hd
  split at hd
  · simp at hd
  · rename_i hg
    simp only [RMachine.run] at hd
    cases hh : dropHandle r m.heap with
    | ok u H =>
      rw [hh] at hd
      simp only [Outcome.ok.injEq, and_true] at hd
      simp [rstep, RMachine.onRc, h3, hg, RMachine.run, intoTree, onPanic, intoTreeRc, isRootRc, withShared, M.bind_apply, e1, M.throw, hh, hd]
    | err e H =>
      rw [hh] at hd
      cases e <;> simp at hd

theorem good_intoTree (hm : SI m) {k : Var} (hs : Safe m (.intoTree k)) : GoodOut m (.intoTree k) (rstep m (.intoTree k)) := by
  refine good_onRc hm fun t ht => ?_
  obtain ⟨r, hr⟩ := look_ref ht
  by_cases hg : m.guarded k = true
  · simp only [RMachine.onRc, hr, hg, if_true]; trivial
  have hg' : m.guarded k = false := by simpa using hg
  show GoodOut m _ (rstep m (.intoTree k))
  obtain ⟨m', e, h, -, -, -, hl, -⟩ := si_drop hm ht hg'
  by_cases hp : m.HasParent t.data.1
  · have : rstep m (.intoTree k) = .panic m' := by
      by_cases hgm : m.Guarded t.data.1 true
      · exact si_intoTree_conflict hm (look_node ht) hgm e
      · exact si_intoTree_panic hm (look_node ht) hp hgm e
    rw [this]; exact .of_look h fun j hj _ => hl j hj
  · rcases hs t ht with h' | ⟨h1, h2⟩
    · exact absurd h' hp
    · obtain ⟨m', e, h, -, -, hl, -⟩ := si_intoTree hm ht hg' hp h1 h2
      rw [e]; exact .of_look h fun j hj _ => hl j hj

theorem scattered_of {r : RcRef} (h : ∀ v i, r ≠ .piled v i) : ∃ a, r = .scattered a := by
  cases r with
  | scattered a => exact ⟨a, rfl⟩
  | piled v i => exact absurd rfl (h v i)

/-- **No safe call runs into undefined behaviour, and the state stays good.** -/
theorem good_step (hm : SI m) (op : ROp α) (hs : Safe m op) : GoodOut m op (rstep m op) := by
  cases op with
  | excl op =>
    rcases si_excl hm op with ⟨m', o, e, -, h, -, hl⟩ | ⟨m', e, -, h, -, hl⟩ | ⟨e, -⟩
    · rw [e]; exact .of_look h fun j _ _ => hl j
    · rw [e]; exact .of_look h fun j _ _ => hl j
    · rw [e]; trivial
  | fromTree x =>
    refine good_takeTree hm fun a t h1 h2 => ?_
    obtain ⟨m', e, h, -, -, hl, -⟩ := si_fromTree hm h2
    show GoodOut m _ (rstep m (.fromTree x)); rw [e]; exact .of_look h fun j _ hj => (hl j fun e => hj (e ▸ look_fresh hm)).2
  | clone k =>
    refine good_onRc hm fun t ht => ?_
    obtain ⟨r, hr⟩ := look_ref ht
    obtain ⟨a, rfl⟩ := scattered_of (r := r) fun v i h => hs v i (by rw [hr, h])
    obtain ⟨m', e, h, -⟩ := si_clone hm ht hr
    show GoodOut m _ (rstep m (.clone k)); rw [e]; exact h.good hm
  | drop k => exact good_drop hm
  | isRoot k =>
    refine good_call hm fun t ht => ?_
    by_cases hg : m.Guarded t.data.1 true
    · rw [RMachine.call]; simp only [isRootRc]; rw [si_conflictS hm (look_node ht) hg]; exact .self hm
    · obtain ⟨b, e, -⟩ := si_isRoot hm (look_node ht) hg
      show GoodOut m _ (rstep m (.isRoot k)); rw [e]; exact .self hm
  | data k =>
    refine good_call hm fun t ht => ?_
    by_cases hg : m.Guarded t.data.1 true
    · rw [RMachine.call, si_conflictS hm (look_node ht) hg]; exact .self hm
    · show GoodOut m _ (rstep m (.data k)); rw [si_data hm ht hg]; exact .self hm
  | degree k =>
    refine good_call hm fun t ht => ?_
    by_cases hg : m.Guarded t.data.1 true
    · rw [RMachine.call, si_conflictS hm (look_node ht) hg]; exact .self hm
    · show GoodOut m _ (rstep m (.degree k)); rw [si_degree hm ht hg]; exact .self hm
  | nodeCount k =>
    refine good_call hm fun t ht => ?_
    by_cases hg : m.Guarded t.data.1 true
    · rw [RMachine.call, si_conflictS hm (look_node ht) hg]; exact .self hm
    · show GoodOut m _ (rstep m (.nodeCount k)); rw [si_nodeCount hm ht hg]; exact .self hm
  | hasNoChild k =>
    refine good_call hm fun t ht => ?_
    by_cases hg : m.Guarded t.data.1 true
    · rw [RMachine.call, si_conflictS hm (look_node ht) hg]; exact .self hm
    · show GoodOut m _ (rstep m (.hasNoChild k)); rw [si_hasNoChild hm ht hg]; exact .self hm
  | front k =>
    refine good_onRc hm fun t ht => ?_
    by_cases hg : m.Guarded t.data.1 true
    · simp only [frontRc]; rw [si_conflictS hm (look_node ht) hg]; exact .self hm
    · show GoodOut m _ (rstep m (.front k))
      cases hc : t.kids with
      | nil => rw [si_front_none hm ht hg hc]; exact .self hm
      | cons c cs => obtain ⟨m', e, h, -⟩ := si_front hm ht hg (c := c) (by rw [hc]; rfl); rw [e]; exact h.good hm
  | back k =>
    refine good_onRc hm fun t ht => ?_
    by_cases hg : m.Guarded t.data.1 true
    · simp only [backRc]; rw [si_conflictS hm (look_node ht) hg]; exact .self hm
    · show GoodOut m _ (rstep m (.back k))
      cases hc : t.kids.getLast? with
      | none => rw [si_back_none hm ht hg (by simpa using hc)]; exact .self hm
      | some c => obtain ⟨m', e, h, -⟩ := si_back hm ht hg hc; rw [e]; exact h.good hm
  | parent k =>
    refine good_onRc hm fun t ht => ?_
    by_cases hg : m.Guarded t.data.1 true
    · simp only [parentRc]; rw [si_conflictS hm (look_node ht) hg]; exact .self hm
    · show GoodOut m _ (rstep m (.parent k))
      by_cases hp : m.HasParent t.data.1
      · obtain ⟨m', t', e, h, -⟩ := si_parent hm (look_node ht) hg hp; rw [e]; exact h.good hm
      · rw [si_parent_none hm (look_node ht) hg hp]; exact .self hm
  | pushFront k y =>
    refine good_takeTree hm fun a u h1 h2 => ?_
    show GoodOut m _ (rstep m (.pushFront k y))
    cases hk : m.nodeOf k with
    | none => 
      have : m.look k = none := by simpa [RMachine.nodeOf] using hk
      simp only [rstep, RMachine.takeTree, h1]; rw [consume_none hm this]; trivial
    | some b =>
      by_cases hg : ∃ w, m.Guarded b w
      · obtain ⟨w, hg⟩ := hg; exact (si_pushFront_conflict hm hk hg h1).good
      · obtain ⟨m', e, h, -, -, hl⟩ := si_pushFront hm hk h2 (fun w h => hg ⟨w, h⟩); rw [e]; exact .of_map h (RTree.modAt_root _ _) fun j _ => hl j
  | pushBack k y =>
    refine good_takeTree hm fun a u h1 h2 => ?_
    show GoodOut m _ (rstep m (.pushBack k y))
    cases hk : m.nodeOf k with
    | none => 
      have : m.look k = none := by simpa [RMachine.nodeOf] using hk
      simp only [rstep, RMachine.takeTree, h1]; rw [consume_none hm this]; trivial
    | some b =>
      by_cases hg : ∃ w, m.Guarded b w
      · obtain ⟨w, hg⟩ := hg; exact (si_pushBack_conflict hm hk hg h1).good
      · obtain ⟨m', e, h, -, -, hl⟩ := si_pushBack hm hk h2 (fun w h => hg ⟨w, h⟩); rw [e]; exact .of_map h (RTree.modAt_root _ _) fun j _ => hl j
  | popFront k =>
    refine good_onRc hm fun t ht => ?_
    by_cases hg : ∃ w, m.Guarded t.data.1 w
    · obtain ⟨w, hg⟩ := hg
      simp only [popFrontRc]; rw [si_conflictM hm (look_node ht) hg]; exact .self hm
    · have hg' : ∀ w, ¬ m.Guarded t.data.1 w := fun w h => hg ⟨w, h⟩
      show GoodOut m _ (rstep m (.popFront k))
      cases hc : t.kids with
      | nil => rw [si_popFront_none hm ht hg' hc]; exact .self hm
      | cons c cs => obtain ⟨m', e, h, -⟩ := si_popFront hm ht hg' (c := c) (by rw [hc]; rfl); rw [e]; exact h.good hm (RTree.modAt_root _ _)
  | popBack k =>
    refine good_onRc hm fun t ht => ?_
    by_cases hg : ∃ w, m.Guarded t.data.1 w
    · obtain ⟨w, hg⟩ := hg
      simp only [popBackRc]; rw [si_conflictM hm (look_node ht) hg]; exact .self hm
    · have hg' : ∀ w, ¬ m.Guarded t.data.1 w := fun w h => hg ⟨w, h⟩
      show GoodOut m _ (rstep m (.popBack k))
      cases hc : t.kids.getLast? with
      | none => rw [si_popBack_none hm ht hg' (by simpa using hc)]; exact .self hm
      | some c => obtain ⟨m', e, h, -⟩ := si_popBack hm ht hg' hc; rw [e]; exact h.good hm (RTree.modAt_root _ _)
  | prepend k y =>
    refine good_takeForest hm fun a u h1 h2 => ?_
    show GoodOut m _ (rstep m (.prepend k y))
    cases hk : m.nodeOf k with
    | none => 
      have : m.look k = none := by simpa [RMachine.nodeOf] using hk
      simp only [rstep, RMachine.takeForest, h1]; rw [consume_none hm this]; trivial
    | some b =>
      by_cases hg : ∃ w, m.Guarded b w
      · obtain ⟨w, hg⟩ := hg; exact (si_prepend_conflict hm hk hg h1).good
      · obtain ⟨m', e, h, -, -, hl⟩ := si_prepend hm hk h2 (fun w h => hg ⟨w, h⟩); rw [e]; exact .of_map h (RTree.modAt_root _ _) fun j _ => hl j
  | append k y =>
    refine good_takeForest hm fun a u h1 h2 => ?_
    show GoodOut m _ (rstep m (.append k y))
    cases hk : m.nodeOf k with
    | none => 
      have : m.look k = none := by simpa [RMachine.nodeOf] using hk
      simp only [rstep, RMachine.takeForest, h1]; rw [consume_none hm this]; trivial
    | some b =>
      by_cases hg : ∃ w, m.Guarded b w
      · obtain ⟨w, hg⟩ := hg; exact (si_append_conflict hm hk hg h1).good
      · obtain ⟨m', e, h, -, -, hl⟩ := si_append hm hk h2 (fun w h => hg ⟨w, h⟩); rw [e]; exact .of_map h (RTree.modAt_root _ _) fun j _ => hl j
  | insertPrevSib k y =>
    refine good_takeTree hm fun a u h1 h2 => ?_
    show GoodOut m _ (rstep m (.insertPrevSib k y))
    cases hk : m.nodeOf k with
    | none => 
      have : m.look k = none := by simpa [RMachine.nodeOf] using hk
      simp only [rstep, RMachine.takeTree, h1]; rw [consume_none hm this]; trivial
    | some b =>
      by_cases hg : ∃ w, m.Guarded b w
      · obtain ⟨w, hg⟩ := hg; exact (si_insertPrevSib_conflict hm hk hg h1).good
      · have hg' : ∀ w, ¬ m.Guarded b w := fun w h => hg ⟨w, h⟩
        by_cases hp : m.HasParent b
        · obtain ⟨m', e, h, -, -, hl⟩ := si_prevSib hm hk h2 hg' hp; rw [e]; exact .of_map h (RTree.sibAt_root _ _) fun j _ => hl j
        · exact (si_insertPrevSib_root hm hk hg' h1 hp).good
  | insertNextSib k y =>
    refine good_takeTree hm fun a u h1 h2 => ?_
    show GoodOut m _ (rstep m (.insertNextSib k y))
    cases hk : m.nodeOf k with
    | none => 
      have : m.look k = none := by simpa [RMachine.nodeOf] using hk
      simp only [rstep, RMachine.takeTree, h1]; rw [consume_none hm this]; trivial
    | some b =>
      by_cases hg : ∃ w, m.Guarded b w
      · obtain ⟨w, hg⟩ := hg; exact (si_insertNextSib_conflict hm hk hg h1).good
      · have hg' : ∀ w, ¬ m.Guarded b w := fun w h => hg ⟨w, h⟩
        by_cases hp : m.HasParent b
        · obtain ⟨m', e, h, -, -, hl⟩ := si_nextSib hm hk h2 hg' hp; rw [e]; exact .of_map h (RTree.sibAt_root _ _) fun j _ => hl j
        · exact (si_insertNextSib_root hm hk hg' h1 hp).good
  | detach k =>
    refine good_call hm fun t ht => ?_
    by_cases hg : ∃ w, m.Guarded t.data.1 w
    · obtain ⟨w, hg⟩ := hg
      rw [RMachine.call]; simp only [detachRc]; rw [si_conflictM hm (look_node ht) hg]; exact .self hm
    · have hg' : ∀ w, ¬ m.Guarded t.data.1 w := fun w h => hg ⟨w, h⟩
      show GoodOut m _ (rstep m (.detach k))
      by_cases hp : m.HasParent t.data.1
      · obtain ⟨m', e, h⟩ := si_detach hm (look_node ht) hg' hp; rw [e]; exact h.good (RTree.sibAt_root _ _)
      · rw [si_detach_root hm (look_node ht) hg' hp]; exact .self hm
  | setData k d =>
    refine good_call hm fun t ht => ?_
    by_cases hg : ∃ w, m.Guarded t.data.1 w
    · obtain ⟨w, hg⟩ := hg
      rw [RMachine.call, si_conflictM hm (look_node ht) hg]; exact .self hm
    · have hg' : ∀ w, ¬ m.Guarded t.data.1 w := fun w h => hg ⟨w, h⟩
      show GoodOut m _ (rstep m (.setData k d))
      obtain ⟨m', e, h⟩ := si_setData hm d ht hg'; rw [e]; exact h.good (RTree.setAt_root _ _)
  | borrow k =>
    refine good_onRc hm fun t ht => ?_
    show GoodOut m _ (rstep m (.borrow k))
    by_cases hg : m.Guarded t.data.1 true
    · rw [si_borrow_conflict hm (look_node ht) hg]; exact .self hm
    · obtain ⟨m', e, h, -⟩ := si_borrow hm ht hg; rw [e]; exact h.good hm
  | borrowMut k =>
    refine good_onRc hm fun t ht => ?_
    show GoodOut m _ (rstep m (.borrowMut k))
    by_cases hg : ∃ w, m.Guarded t.data.1 w
    · obtain ⟨w, hg⟩ := hg
      rw [si_borrowMut_conflict hm (look_node ht) hg]; exact .self hm
    · obtain ⟨m', e, h, -⟩ := si_borrowMut hm ht (fun w h => hg ⟨w, h⟩); rw [e]; exact h.good hm
  | guardRead g =>
    by_cases h : ∃ k a w, m.refs g = some (.guard k a w)
    · obtain ⟨k, a, w, h⟩ := h
      obtain ⟨t, ht, -⟩ := si_guard hm h
      rw [si_guardRead hm h ht]; exact .self hm
    · have : rstep m (.guardRead g) = .rejected := by
        simp only [rstep]
        split
        · rename_i k a w e; exact absurd ⟨k, a, w, e⟩ h
        · rfl
      rw [this]; trivial
  | guardWrite g d =>
    by_cases h : ∃ k a, m.refs g = some (.guard k a true)
    · obtain ⟨k, a, h⟩ := h
      obtain ⟨t, ht, -⟩ := si_guard hm h
      obtain ⟨m', e, h⟩ := si_guardWrite hm d h ht
      rw [e]; exact h.good (RTree.setAt_root _ _)
    · have : rstep m (.guardWrite g d) = .rejected := by
        simp only [rstep]
        split
        · rename_i k a e; exact absurd ⟨k, a, e⟩ h
        · rfl
      rw [this]; trivial
  | iterRc k =>
    refine good_onRc hm fun t ht => ?_
    by_cases hg : m.Guarded t.data.1 true
    · simp only [iterRc]; rw [si_conflictS hm (look_node ht) hg]; exact .self hm
    · show GoodOut m _ (rstep m (.iterRc k))
      obtain ⟨m', e, h, -⟩ := si_iterRc hm ht hg; rw [e]; exact h.good hm
  | iterNext i => exact good_iterNext hm hs
  | iterClone i =>
    cases h : m.refs i with
    | none => simp only [rstep, h]; trivial
    | some q => cases q with
      | iter it => obtain ⟨m', e, h, -⟩ := si_iterClone hm h; rw [e]; exact h.good hm
      | rc r => simp only [rstep, h]; trivial
      | weak r => simp only [rstep, h]; trivial
      | guard k a w => simp only [rstep, h]; trivial
  | iterLen i =>
    simp only [rstep]
    split
    · exact .self hm
    · trivial
  | downgrade k =>
    refine good_onRc hm fun t ht => ?_
    obtain ⟨r, hr⟩ := look_ref ht
    obtain ⟨a, rfl⟩ := scattered_of (r := r) fun v i h => hs v i (by rw [hr, h])
    obtain ⟨m', e, h, -⟩ := si_downgrade hm ht hr
    show GoodOut m _ (rstep m (.downgrade k)); rw [e]; exact h.good hm
  | upgrade w =>
    by_cases h : ∃ r, m.refs w = some (.weak r)
    · obtain ⟨r, h⟩ := h
      obtain ⟨a, rfl⟩ := si_weak_scattered hm h
      by_cases hs : m.Shown a
      · obtain ⟨m', t, e, h, -⟩ := si_upgrade hm h hs; rw [e]; exact h.good hm
      · rw [si_upgrade_none hm h hs]; exact .self hm
    · have : rstep m (.upgrade w) = .rejected := by
        simp only [rstep]
        split
        · rename_i r e; exact absurd ⟨r, e⟩ h
        · rfl
      rw [this]; trivial
  | deepClone k f =>
    refine good_onRc hm fun t ht => ?_
    by_cases hg : m.Guarded t.data.1 true
    · rw [si_conflictS hm (look_node ht) hg]; exact .self hm
    · show GoodOut m _ (rstep m (.deepClone k f))
      obtain ⟨m', e, h, -, -, hl, -⟩ := si_deepClone hm f ht hg; rw [e]; exact .of_look h fun j _ _ => hl j
  | intoTree k => exact good_intoTree hm hs

end
end Trees
