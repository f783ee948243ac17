import Verif.Props.SharedCases
import Verif.Proof.RcMono
/-
C35, C36, C43, C44: properties that hold for one kind of storage, or as long as the client is careful, but not in
general. For each: what holds (`_partial`) and a history after which it fails (`_refuted`).
-/
namespace Trees
set_option linter.unusedSimpArgs false
set_option linter.unusedVariables false
variable {α : Type}
open Classical

namespace RTree
variable {ι : Type}
mutual
theorem released_none (held : ι → Bool) : ∀ (t : RTree (ι × α)), (∀ x ∈ t.ids, held x = false) → t.released held = t.post
  | node y ts, hh => by
    simp only [ids_node, List.mem_cons] at hh
    simp only [released, post]
    rw [if_neg (by rw [hh y.1 (.inl rfl)]; simp), releasedL_none held ts (fun x hx => hh x (.inr hx))]
theorem releasedL_none (held : ι → Bool) : ∀ (ts : List (RTree (ι × α))), (∀ x ∈ idsL ts, held x = false) → releasedL held ts = postL ts
  | [], _ => by simp [releasedL, postL]
  | u :: us, hh => by
    simp only [idsL_cons, List.mem_append] at hh
    simp only [releasedL, postL]
    rw [released_none held u (fun x hx => hh x (.inl hx)), releasedL_none held us (fun x hx => hh x (.inr hx))]
end
mutual
theorem map_post' {γ δ : Type} (f : γ → δ) : ∀ (t : RTree γ), (t.map f).post = t.post.map f
  | node x ts => by simp [map, post, mapL_post' f ts]
theorem mapL_post' {γ δ : Type} (f : γ → δ) : ∀ (ts : List (RTree γ)), postL (mapL f ts) = (postL ts).map f
  | [] => by simp [mapL, postL]
  | t :: ts => by simp [mapL, postL, map_post' f t, mapL_post' f ts]
end
end RTree

/-- A handle in an `Rc` box of its own (not in a contiguous block). -/
def RMachine.Scattered (m : RMachine α) (k : Var) : Prop := ∀ v i, m.refs k ≠ some (.rc (.piled v i))

theorem scattered_ref {m : RMachine α} {k : Var} {t : RTree (Addr × α)} (hk : m.look k = some t) (hs : m.Scattered k) :
    ∃ a, m.refs k = some (.rc (.scattered a)) := by
  obtain ⟨r, h⟩ := look_ref hk
  cases r with
  | scattered a => exact ⟨a, h⟩
  | piled v i => exact absurd h (hs v i)

/-- The outcome of a history of calls, all but the last of which return normally. -/
def rlast : List (ROp Nat) → ROp Nat → Bool
  | ops, op => match rexec RMachine.empty ops with
    | some m => match rstep m op with
      | .bad => true
      | _ => false
    | none => false

theorem rlast_bad {ops : List (ROp Nat)} {op : ROp Nat} (h : rlast ops op = true) :
    ∃ m, RReachable m ∧ rexec RMachine.empty ops = some m ∧ rstep m op = .bad := by
  simp only [rlast] at h
  split at h
  · rename_i m hm
    split at h
    · rename_i hb; exact ⟨m, rexec_reach ops .init hm, hm, hb⟩
    · simp at h
  · simp at h

theorem rexec_append (m : RMachine α) (ops ops' : List (ROp α)) :
    rexec m (ops ++ ops') = (rexec m ops).bind fun m => rexec m ops' := by
  induction ops generalizing m with
  | nil => rfl
  | cons op ops ih =>
    simp only [List.cons_append, rexec]
    split
    · exact ih _
    · rfl

section
variable {m : RMachine α} (hr : SReachable m)
include hr

/-! ### C35 -/

/-- **C35**, for handles outside of contiguous blocks: the clone is a handle to the same node; the drop of the clone, or of the
original, leaves all other handles and everything else as it was, and no data item is dropped. -/
theorem c35_clone_partial {k : Var} {t : RTree (Addr × α)} (hk : m.look k = some t) (hs : m.Scattered k) (hg : m.guarded k = false) :
    ∃ m₁, rstep m (.clone k) = .ok m₁ (.var m.fresh) ∧ NewHandle m m₁ t ∧
      (∃ m₂, rstep m₁ (.drop m.fresh) = .ok m₂ .unit ∧ SReachable m₂ ∧ m₂.refs = m.refs ∧ (∀ j, m₂.look j = m.look j) ∧ m₂.excl.view = m.excl.view ∧ m₂.heap.log = m.heap.log) ∧
      (∃ m₂, rstep m₁ (.drop k) = .ok m₂ .unit ∧ SReachable m₂ ∧ m₂.look m.fresh = some t ∧ (∀ j, j ≠ k → j ≠ m.fresh → m₂.look j = m.look j) ∧ m₂.excl.view = m.excl.view ∧ m₂.heap.log = m.heap.log) := by
  obtain ⟨a, ha⟩ := scattered_ref hk hs
  obtain ⟨m1, h1, h2, h3⟩ := si_clone hr.si hk ha
  have hr1 : SReachable m1 := .ok (op := .clone k) hr hs h1
  have hn := h2.new hr1 h3
  have hkf : k ≠ m.fresh := by rintro rfl; rw [look_fresh hr.si] at hk; simp at hk
  have hk1 : m1.look k = some t := by rw [h2.looks k hkf]; exact hk
  have hgd : ∀ j, m.guarded j = false → j ≠ m.fresh ∨ True → m1.guarded j = false := by
    intro j hj _
    by_contra hc
    have hc : m1.guarded j = true := by simpa using hc
    simp only [RMachine.guarded, List.any_eq_true, List.mem_range] at hc
    obtain ⟨g, hgl, hc⟩ := hc
    split at hc
    · rename_i k' b w hgr
      simp only [beq_iff_eq] at hc
      subst hc
      have hgf : g ≠ m.fresh := by
        rintro rfl
        obtain ⟨r, hr'⟩ := look_ref h3
        rw [hgr] at hr'; simp at hr'
      have hgl' : g < m.fresh := by rw [h2.fresh] at hgl; exact Nat.lt_of_le_of_ne (Nat.lt_succ_iff.mp hgl) hgf
      rw [h2.refs g hgf] at hgr
      have : m.guarded k' = true := by
        simp only [RMachine.guarded, List.any_eq_true, List.mem_range]
        exact ⟨g, hgl', by rw [hgr]; simp⟩
      rw [this] at hj; simp at hj
    · simp at hc
  have hgf : m.guarded m.fresh = false := by
    by_contra hc
    have hc : m.guarded m.fresh = true := by simpa using hc
    simp only [RMachine.guarded, List.any_eq_true, List.mem_range] at hc
    obtain ⟨g, hgl, hc⟩ := hc
    split at hc
    · rename_i k' b w hgr
      simp only [beq_iff_eq] at hc
      subst hc
      obtain ⟨u, hu, -⟩ := si_guard hr.si hgr
      rw [look_fresh hr.si] at hu; simp at hu
    · simp at hc
  have hrel : ∀ x, (x = m.fresh ∨ x = k) → t.released (m1.heldElse x) = [] := by
    intro x hx
    have : m1.heldElse x t.data.1 = true := by
      simp only [RMachine.heldElse, decide_eq_true_eq]
      rcases hx with rfl | rfl
      · exact ⟨k, hkf, look_node hk1⟩
      · exact ⟨m.fresh, hkf.symm, look_node h3⟩
    cases t with
    | node y ts => simp only [RTree.released]; exact if_pos this
  refine ⟨m1, h1, hn, ?_, ?_⟩
  · obtain ⟨m2, e, r2, q1, q2, q3, q4⟩ := c34_drop hr1 h3 (hgd _ hgf (.inr trivial))
    have q5 : m2.excl.store = m1.excl.store := by
      rw [q4, hrel _ (.inl rfl)]; simp [Store.drop]
    refine ⟨m2, e, r2, ?_, ?_, ?_, ?_⟩
    · rw [q1]; funext j
      by_cases hj : j = m.fresh
      · subst hj
        obtain ⟨G, K, T, I, B⟩ := hr.si
        simp [(I.fr m.fresh (Nat.le_refl _)).2]
      · rw [upd_of_ne _ _ hj, h2.refs j hj]
    · intro j
      by_cases hj : j = m.fresh
      · subst hj; rw [q3, look_fresh hr.si]
      · rw [q2 j hj, h2.looks j hj]
    · have : m2.excl.store.vars = m1.excl.store.vars := by rw [q5]
      exact this.trans h2.vars
    · have : m2.excl.store.dropped = m1.excl.store.dropped := by rw [q5]
      exact this.trans h2.log
  · obtain ⟨m2, e, r2, q1, q2, q3, q4⟩ := c34_drop hr1 hk1 (hgd _ hg (.inr trivial))
    have q5 : m2.excl.store = m1.excl.store := by
      rw [q4, hrel _ (.inr rfl)]; simp [Store.drop]
    refine ⟨m2, e, r2, ?_, ?_, ?_, ?_⟩
    · rw [q2 _ hkf.symm, h3]
    · intro j hj hj'; rw [q2 j hj, h2.looks j hj']
    · have : m2.excl.store.vars = m1.excl.store.vars := by rw [q5]
      exact this.trans h2.vars
    · have : m2.excl.store.dropped = m1.excl.store.dropped := by rw [q5]
      exact this.trans h2.log

/-! ### C36 -/

/-- **C36** `downgrade` of a handle outside of contiguous blocks: a weak handle to the same node; nothing else changes. -/
theorem c36_downgrade_partial {k : Var} {t : RTree (Addr × α)} (hk : m.look k = some t) (hs : m.Scattered k) :
    ∃ m', rstep m (.downgrade k) = .ok m' (.var m.fresh) ∧ SReachable m' ∧ m'.refs m.fresh = some (.weak (.scattered t.data.1)) ∧
      (∀ j, j ≠ m.fresh → m'.refs j = m.refs j ∧ m'.look j = m.look j) ∧ m'.excl.view = m.excl.view ∧ m'.heap.log = m.heap.log := by
  obtain ⟨a, ha⟩ := scattered_ref hk hs
  obtain ⟨m', h, h1, h2⟩ := si_downgrade hr.si hk ha
  exact ⟨m', h, .ok (op := .downgrade k) hr hs h, h2, fun j hj => ⟨h1.refs j hj, h1.looks j hj⟩, h1.vars, h1.log⟩

/-- **C36** `upgrade` of a weak handle to node `a` gives a handle to that node, with its present subtree, as long as some handle shows it ... -/
theorem c36_upgrade_partial {w : Var} {a : Addr} (hw : m.refs w = some (.weak (.scattered a))) (hs : m.Shown a) :
    ∃ m' t, rstep m (.upgrade w) = .ok m' (.var m.fresh) ∧ NewHandle m m' t ∧ t.data.1 = a := by
  obtain ⟨m', t, h, h1, h2, h3⟩ := si_upgrade hr.si hw hs
  exact ⟨m', t, h, h1.new (.ok (op := .upgrade w) hr trivial h) h2, h3⟩

/-- **C36** ... and `None` afterwards; ... -/
theorem c36_upgrade_none_partial {w : Var} {a : Addr} (hw : m.refs w = some (.weak (.scattered a))) (hs : ¬ m.Shown a) :
    rstep m (.upgrade w) = .ok m .none := si_upgrade_none hr.si hw hs

/-- **C36** ... and never again: once the node is gone, no call brings it back (its identity is not used again). -/
theorem c36_gone_partial {w : Var} {a : Addr} (hw : m.refs w = some (.weak (.scattered a))) (hn : ¬ m.Shown a) {op : ROp α} (hs : Safe m op) {m' : RMachine α}
    (h : (∃ o, rstep m op = .ok m' o) ∨ rstep m op = .panic m') : ¬ m'.Shown a := by
  have hr' : SReachable m' := by
    rcases h with ⟨o, h⟩ | h
    · exact .ok hr hs h
    · exact .panic hr hs h
  have hf : Fades m.heap m'.heap := rstep_gone op m'.heap (by
    rcases h with ⟨o, h⟩ | h <;> rw [h] <;> rfl)
  have hlt : a < m.heap.nextAddr ∧ m.heap.live a = false := by
    obtain ⟨G, K, T, I, B⟩ := hr.si
    obtain ⟨b, h1, h2, h3⟩ := I.wk w _ hw
    cases h1
    have e1 : m.heap.nextAddr = G.nextAddr := by rw [I.heap]; rfl
    have e2 : m.heap.live = G.live := by rw [I.heap]; rfl
    refine ⟨by rw [e1]; exact h2, ?_⟩
    rw [e2, ← Bool.not_eq_true]
    intro hl
    obtain ⟨⟨d, hd⟩, hx⟩ := h3 hl
    refine hn (I.shown.mpr ⟨⟨hl, ?_⟩, hx⟩)
    rw [hd]; simp [Data.isNone]
  exact si_gone hr.si hr'.si hf hlt.1 hlt.2

/-- **C36** the drop of a weak handle changes nothing else. -/
theorem c36_drop_weak_partial {w : Var} {r : RcRef} (hw : m.refs w = some (.weak r)) :
    ∃ m', rstep m (.drop w) = .ok m' .unit ∧ SReachable m' ∧ m'.refs = upd m.refs w none ∧ (∀ j, m'.look j = m.look j) ∧ m'.excl.store = m.excl.store := by
  obtain ⟨m', h, h1⟩ := si_dropWeak hr.si hw
  exact ⟨m', h, .ok (op := .drop w) hr trivial h, h1.refs, h1.looks, h1.store⟩

/-- **C36** weak handles do not keep nodes alive: the drop of a handle releases the same data items, whatever weak handles there are
(only strong handles occur in what `c34_drop` says). -/
theorem c36_no_keep_partial {k : Var} {t : RTree (Addr × α)} (hk : m.look k = some t) (hg : m.guarded k = false) (hp : ¬ m.HasParent t.data.1)
    (ho : ∀ j b, j ≠ k → m.nodeOf j = some b → b ∉ t.ids) {w : Var} {a : Addr} (hw : m.refs w = some (.weak (.scattered a))) (ha : a ∈ t.ids) :
    ∃ m', rstep m (.drop k) = .ok m' .unit ∧ SReachable m' ∧ rstep m' (.upgrade w) = .ok m' .none ∧ m'.excl.store = m.excl.store.drop t.plain.post := by
  obtain ⟨m', h, h1, h2, h3, h4, h5⟩ := c34_drop hr hk hg
  have hheld : ∀ x ∈ t.ids, m.heldElse k x = false := by
    intro x hx
    simp only [RMachine.heldElse, decide_eq_false_iff_not]
    rintro ⟨j, hj, hn⟩
    exact ho j x hj hn hx
  have hw' : m'.refs w = some (.weak (.scattered a)) := by
    have : w ≠ k := by
      rintro rfl
      obtain ⟨r, hr'⟩ := look_ref hk
      rw [hw] at hr'; simp at hr'
    rw [h2, upd_of_ne _ _ this]; exact hw
  refine ⟨m', h, h1, ?_, ?_⟩
  · refine si_upgrade_none h1.si hw' ?_
    have := (c34_once hr hk hp h).2.2 a ⟨k, t, hk, ha⟩
    rw [this]
    simp only [not_not]
    obtain ⟨x, hx, e⟩ := List.mem_map.mp ha
    refine List.mem_map.mpr ⟨x, ?_, e⟩
    rw [released_iff _ (c37_distinct hr hk)]
    exact ⟨hx, fun s hs hheld' => by
      have : s.data.1 ∈ t.ids := RTree.subs_ids hs _ (RTree.root_mem_ids _)
      rw [hheld _ this] at hheld'; simp at hheld'⟩
  · rw [h5, if_neg hp, RTree.released_none _ t hheld, RTree.plain, RTree.map_post']

/-! ### C44 -/

/-- **C44**, as long as the node the iterator stands before is part of the tree of some handle: `next` gives a handle to it. -/
theorem c44_next_partial {i : Var} {c : Addr} {cs : List Addr} (hi : m.IterAt i (c :: cs)) (hc : m.Shown c) :
    ∃ m' t, rstep m (.iterNext i) = .ok m' (.var m.fresh) ∧ SReachable m' ∧ m'.look m.fresh = some t ∧ t.data.1 = c ∧
      (∀ j, j ≠ m.fresh → m'.look j = m.look j) ∧ m'.excl.view = m.excl.view ∧ m'.heap.log = m.heap.log := by
  obtain ⟨it, h1, h2, h3⟩ := hi
  replace h3 := h3 (by simp)
  obtain ⟨cu, n⟩ := it
  simp only [List.head?_cons, List.length_cons] at h2 h3
  subst h2 h3
  obtain ⟨m', t, h4, h5, h6, h7⟩ := si_iterNext_shown hr.si h1 hc
  refine ⟨m', t, h4, .ok (op := .iterNext i) hr ?_ h4, h6, h7, h5.looks, h5.vars, h5.log⟩
  rintro b bs ⟨it, g1, g2, g3⟩
  rw [h1] at g1; cases g1
  have := g3 (by simp)
  simp at this; subst this; exact hc
end

/-! ### C43 -/

/-- **C43**, what holds: the node that `detach` was called on is the root of the returned tree ... -/
theorem c43_detach_partial {m : Machine α} (hr : Reachable m) {x : Var} {q : Path} {v : Val α} {s : RTree α} {l r : List (RTree α)}
    (hx : m.view x = some v) (hv : v.isIter = false) (hp : kidsAt v.kids q = some (l ++ s :: r)) :
    ∃ a m', m.nodeAt x (q ++ [l.length]) = some a ∧ step m (.detach x (.child q l.length)) = .ok m' (.var m.fresh) ∧ Reachable m' ∧
      m'.nodeAt m.fresh [] = some a ∧ m'.view m.fresh = some (.tree s) := by
  obtain ⟨m', h1, h2, -, h3, -⟩ := c05_detach hr hx hv hp
  obtain ⟨K, M⟩ := Proof.reachable_minv hr
  obtain ⟨hd, n, h4, A⟩ := Proof.nodeAt_at M hx hp
  have hl : (l ++ s :: r).length = (K n).length := A.kden.length.symm
  have hlt : l.length < (K n).length := by rw [← hl]; simp
  have hna := Proof.nodeAt_child M A l.length
  rw [List.getElem?_eq_getElem hlt] at hna
  refine ⟨_, m', hna, h1, h2, ?_, h3⟩
  have hloc := locate_ok M.inv (M.hnd x hd A.env).used (p := q ++ [l.length])
  simp only [Machine.nodeAt, A.env, hloc] at hna
  have hni : hd.isIter = false := by rw [A.den.isIter]; exact hv
  simp only [step, Machine.onNode, A.env, hni, Machine.run, hloc, hna] at h1
  have hK : K n = (K n).take l.length ++ (K n)[l.length] :: (K n).drop (l.length + 1) := by simp
  obtain ⟨h', e, -⟩ := detach_ok M.inv hK (M.kv n _ (List.getElem_mem hlt))
  simp only [e, Machine.retVar] at h1
  simp at h1
  rw [← h1]
  simp [Machine.nodeAt, locate, Handle.addr]

/-- **C43** ... and may be used as long as this tree is there, ... -/
theorem c43_use_partial {m : Machine α} (hr : Reachable m) {x : Var} {a : Addr} {t : RTree α}
    (hx : m.view x = some (.tree t)) (ha : m.nodeAt x [] = some a) : dataRef a m.heap = .ok t.data m.heap := by
  obtain ⟨K, M⟩ := Proof.reachable_minv hr
  obtain ⟨hd, n, h1, A⟩ := Proof.nodeAt_at M hx (p := []) rfl
  rw [ha] at h1; cases h1
  have := A.res
  simp only [resolve, Option.some.injEq] at this
  have hd' := A.den
  cases hd <;> simp only [HDen] at hd'
  simp only [Handle.addr] at this; subst this
  cases t with
  | node d ts => exact dataRef_ok (M.hnd x _ A.env).used.1 hd'.1

/-- **C43** ... also after the tree has been attached to another one. -/
theorem c43_use_child_partial {m : Machine α} (hr : Reachable m) {x : Var} {q : Path} {i : Nat} {a : Addr} {v : Val α} {us : List (RTree α)} {s : RTree α}
    (hx : m.view x = some v) (hp : kidsAt v.kids q = some us) (hs : us[i]? = some s) (ha : m.nodeAt x (q ++ [i]) = some a) :
    dataRef a m.heap = .ok s.data m.heap := by
  obtain ⟨K, M⟩ := Proof.reachable_minv hr
  obtain ⟨hd, n, h1, A⟩ := Proof.nodeAt_at M hx hp
  rw [Proof.nodeAt_child M A] at ha
  rcases A.kden.get i with ⟨h2, -⟩ | ⟨c, t, h2, h3, h4⟩
  · rw [ha] at h2; simp at h2
  · rw [ha] at h2; cases h2
    rw [hs] at h3; cases h3
    cases s with
    | node d ts => exact dataRef_ok (M.inv.used_of_mem (List.mem_of_getElem? ha)).1 h4.1

/-! ### Counterexamples -/

/-- A contiguous tree `7`, shared. -/
def piledOps : List (ROp Nat) := [.excl (.treeNew 7), .excl (.mapBfs 0 .root (fun _ => id)), .fromTree 1]

/-- **C35** is false for contiguous storage: after `let b = a.clone(); drop( b );` the use of `a` is undefined behaviour. -/
theorem c35_refuted : ∃ m, RReachable m ∧ rexec RMachine.empty (piledOps ++ [.clone 2, .drop 3]) = some m ∧ rstep m (.data 2) = .bad :=
  rlast_bad (by decide +kernel)

/-- **C36** is false for contiguous storage: the drop of a weak handle invalidates the strong handle ... -/
theorem c36_refuted : ∃ m, RReachable m ∧ rexec RMachine.empty (piledOps ++ [.downgrade 2, .drop 3]) = some m ∧ rstep m (.data 2) = .bad :=
  rlast_bad (by decide +kernel)

/-- **C36** ... and `upgrade` after the drop of the strong handle is undefined behaviour instead of `None`. -/
theorem c36_refuted_upgrade : ∃ m, RReachable m ∧ rexec RMachine.empty (piledOps ++ [.downgrade 2, .drop 2]) = some m ∧ rstep m (.upgrade 3) = .bad :=
  rlast_bad (by decide +kernel)

/-- **C44** is false: `let it = a.iter_rc(); drop( a ); it.next();`. -/
theorem c44_refuted : ∃ m, RReachable m ∧
    rexec RMachine.empty [.excl (.treeNew 7), .excl (.treeNew 8), .excl (.pushBack 0 [] 1), .fromTree 0, .iterRc 2, .drop 2] = some m ∧ rstep m (.iterNext 3) = .bad :=
  rlast_bad (by decide +kernel)

/-- The state after some calls of the exclusive API. -/
def detachOps : List (Op Nat) := [.treeNew 0, .treeNew 1, .pushBack 0 [] 1]

/-- Test: the node at path `[0]` of variable 0 before `ops'` is not in memory any more afterwards. -/
def dangles (ops ops' : List (Op Nat)) : Bool :=
  match (exec step Machine.empty ops).1.nodeAt 0 [0] with
  | some a => match dataRef a (exec step Machine.empty (ops ++ ops')).1.heap with
    | .err .ub _ => true
    | _ => false
  | none => false

/-- **C43** is false: `let t = node.as_mut().detach(); drop( t ); node.data()` — `detach` borrows the node only for the call. -/
theorem c43_refuted : ∃ a h, (exec step Machine.empty detachOps).1.nodeAt 0 [0] = some a ∧
    dataRef a (exec step Machine.empty (detachOps ++ [.detach 0 (.child [] 0), .drop 2])).1.heap = .err .ub h := by
  have h : dangles detachOps [.detach 0 (.child [] 0), .drop 2] = true := by decide +kernel
  simp only [dangles] at h
  split at h
  · rename_i a ha
    split at h
    · rename_i h' e; exact ⟨a, h', ha, e⟩
    · simp at h
  · simp at h

/-! ### Cases -/

/-- A test of `Scattered`. -/
def RMachine.boxed (m : RMachine Nat) (k : Var) : Bool := match m.refs k with
  | some (.rc (.piled _ _)) => false
  | _ => true
theorem RMachine.scattered_of_boxed {m : RMachine Nat} {k : Var} (h : m.boxed k = true) : m.Scattered k := by
  intro v i e; simp [RMachine.boxed, e] at h

example : ∃ m₁ m₂, rstep sdemo (.clone 5) = .ok m₁ (.var 10) ∧ rstep m₁ (.drop 10) = .ok m₂ .unit ∧ m₂.look 6 = sdemo.look 6 := by
  obtain ⟨m1, h1, -, ⟨m2, h2, -, -, h3, -⟩, -⟩ := c35_clone_partial sdemo_reach sdemo_look5 (RMachine.scattered_of_boxed (by decide +kernel)) (by decide +kernel)
  rw [sdemo_fresh] at h1 h2
  exact ⟨m1, m2, h1, h2, h3 6⟩

/-- Variable 10 is a weak handle to node `2`. -/
def sweak : RMachine Nat := sAfter (sdemoOps ++ [.downgrade 5])
theorem sweak_reach : SReachable sweak := sAfter_reach _
/-- Test of a weak handle. -/
def RMachine.isWeak (m : RMachine Nat) (w : Var) (a : Addr) : Bool := match m.refs w with
  | some (.weak (.scattered b)) => b == a
  | _ => false
theorem RMachine.weak_of {m : RMachine Nat} {w a} (h : m.isWeak w a = true) : m.refs w = some (.weak (.scattered a)) := by
  simp only [RMachine.isWeak] at h
  split at h
  · rename_i hg; simp only [beq_iff_eq] at h; subst h; exact hg
  · simp at h
theorem sweak_weak : sweak.refs 10 = some (.weak (.scattered 1)) := RMachine.weak_of (by decide +kernel)
theorem sweak_look4 : sweak.look 4 = some (.node (0,1) [.node (1,2) [.node (2,3) []], .node (3,4) []]) := RMachine.look_of_shows (by decide +kernel)

example : ∃ m' t, rstep sweak (.upgrade 10) = .ok m' (.var sweak.fresh) ∧ NewHandle sweak m' t ∧ t.data.1 = 1 :=
  c36_upgrade_partial sweak_reach sweak_weak ⟨4, _, sweak_look4, by decide⟩

/-- After the drop of all three handles the weak handle gives `None`. -/
def sweakGone : RMachine Nat := sAfter (sdemoOps ++ [.downgrade 5, .drop 4, .drop 5, .drop 6])
example : rstep sweakGone (.upgrade 10) = .ok sweakGone .none :=
  c36_upgrade_none_partial (a := 1) (sAfter_reach _) (RMachine.weak_of (by decide +kernel)) (by
    rintro ⟨j, t, h, -⟩
    have h1 := RMachine.mem_handles (sAfter_reach _) h
    have h2 : sweakGone.handles = [] := by decide +kernel
    have h3 : (sAfter (sdemoOps ++ [.downgrade 5, .drop 4, .drop 5, .drop 6])).handles = [] := h2
    rw [h3] at h1; simp at h1)

/-- The last handle to the tree goes although a weak handle to node `2` is there. -/
def sweakOnly : RMachine Nat := sAfter (sdemoOps ++ [.downgrade 5, .drop 5, .drop 6])
theorem sweakOnly_reach : SReachable sweakOnly := sAfter_reach _
theorem sweakOnly_look4 : sweakOnly.look 4 = some (.node (0,1) [.node (1,2) [.node (2,3) []], .node (3,4) []]) := RMachine.look_of_shows (by decide +kernel)
example : ∃ m', rstep sweakOnly (.drop 4) = .ok m' .unit ∧ rstep m' (.upgrade 10) = .ok m' .none := by
  have hh : ∀ {k t}, sweakOnly.look k = some t → k = 4 := by
    intro k t h
    have h1 := RMachine.mem_handles sweakOnly_reach h
    have h2 : sweakOnly.handles = [4] := by decide +kernel
    rw [h2] at h1; simpa using h1
  obtain ⟨m', h, -, h1, -⟩ := c36_no_keep_partial sweakOnly_reach sweakOnly_look4 (by decide +kernel)
    (by rintro ⟨j, t, h, ha⟩
        have := hh h; subst this
        rw [sweakOnly_look4] at h; cases h; revert ha; decide)
    (by intro j b hj hn
        simp only [RMachine.nodeOf, Option.map_eq_some_iff] at hn
        obtain ⟨t, ht, -⟩ := hn
        exact absurd (hh ht) hj)
    (w := 10) (a := 1) (RMachine.weak_of (by decide +kernel)) (by decide)
  exact ⟨m', h, h1⟩

/-- An iterator over the children of the root. -/
def siter : RMachine Nat := sAfter (sdemoOps ++ [.iterRc 4])
/-- Test of an iterator. -/
def RMachine.isIterAt (m : RMachine Nat) (i : Var) (cs : List Addr) : Bool := match m.refs i with
  | some (.iter it) => it.len == cs.length && (it.curr == cs.head?)
  | _ => false
theorem RMachine.iterAt_of {m : RMachine Nat} {i cs} (h : m.isIterAt i cs = true) : m.IterAt i cs := by
  simp only [RMachine.isIterAt] at h
  split at h
  · rename_i it hg; simp only [Bool.and_eq_true, beq_iff_eq] at h; exact ⟨it, hg, h.1, fun _ => h.2⟩
  · simp at h
example : ∃ m' t, rstep siter (.iterNext 10) = .ok m' (.var siter.fresh) ∧ SReachable m' ∧ m'.look siter.fresh = some t ∧ t.data.1 = 1 := by
  have hl : siter.look 4 = some (.node (0,1) [.node (1,2) [.node (2,3) []], .node (3,4) []]) := RMachine.look_of_shows (by decide +kernel)
  obtain ⟨m', t, h, h1, h2, h3, -⟩ := c44_next_partial (m := siter) (sAfter_reach _) (i := 10) (c := 1) (cs := [3]) (RMachine.iterAt_of (by decide +kernel))
    ⟨4, _, hl, by decide⟩
  exact ⟨m', t, h, h1, h2, h3⟩

example : ∃ a m', demo.nodeAt 0 ([] ++ [([] : List (RTree Nat)).length]) = some a ∧ step demo (.detach 0 (.child [] 0)) = .ok m' (.var demo.fresh) ∧ Reachable m' ∧
    m'.nodeAt demo.fresh [] = some a ∧ m'.view demo.fresh = some (.tree (.node 1 [])) :=
  c43_detach_partial demo_reachable (x := 0) (q := []) (l := []) (r := [.node 2 []]) demo_view0 rfl rfl

end Trees
