import Verif.Proof.RcGuard
/-
Between trees and shared nodes: conversions, deep clones, calls on exclusive values.
-/
namespace Trees
set_option linter.unusedSimpArgs false
set_option linter.unusedVariables false
variable {α β γ : Type}
open Classical

section
variable {m : RMachine α} {G : Heap α} {K : Addr → List Addr} {T : Var → Option Addr}

/-! ### From a tree to shared nodes -/

theorem RInv.share (I : RInv m G K T) {x : Var} {a : Addr} {r : RcRef} (hx : m.env x = some (.tree a)) (hr : r.Is G a) :
    RInv ⟨m.heap, upd m.env x none, upd m.refs m.fresh (some (.rc r)), m.fresh + 1⟩ G K (upd T m.fresh (some a)) := by
  have ho := I.hnd x _ hx
  have hT := I.tnone (Nat.le_refl m.fresh)
  have hf := I.fr m.fresh (Nat.le_refl _)
  have hxe : Excl m.env K a := ⟨x, _, hx, .refl _⟩
  have hno : ∀ k, T k ≠ some a := fun k hk => (I.tgt k a hk).2.2 hxe
  have henv : ∀ {y hd}, upd m.env x none y = some hd → y ≠ x ∧ m.env y = some hd := by
    intro y hd h
    by_cases e : y = x
    · subst e; simp at h
    · rw [upd_of_ne _ _ e] at h; exact ⟨e, h⟩
  have hmono : ∀ {b}, Excl (upd m.env x none) K b → Excl m.env K b := by
    rintro b ⟨y, hd, h1, h2⟩; exact ⟨y, hd, (henv h1).2, h2⟩
  have hE : extra G (m.fresh + 1) (upd T m.fresh (some a)) = extra G m.fresh T := by
    funext b
    simp only [extra, nh_bind hT]
    by_cases e : a = b
    · subst e
      have h0 : nh m.fresh T a = 0 := by
        by_contra h
        obtain ⟨k, -, hk⟩ := nh_pos.mp h
        exact hno k hk
      have : G.up a = none := ho.root
      simp [h0, this]
    · simp [e]
  have hold : ∀ {k b}, T k = some b → upd T m.fresh (some a) k = some b := fun {k b} h => by
    have : k ≠ m.fresh := fun e => by rw [e, hT] at h; simp at h
    rw [upd_of_ne _ _ this]; exact h
  refine ⟨by show m.heap = _; rw [hE]; exact I.heap, I.inv, I.st, I.kv, fun y hd h => I.hnd y hd (henv h).2,
    fun y z hy hz h1 h2 e => I.dist y z hy hz (henv h1).2 (henv h2).2 e, ?_, ?_, ?_, ?_, ?_, ?_, ?_⟩
  · intro y hy
    have h1 : m.fresh ≤ y := Nat.le_of_succ_le hy
    have h2 : y ≠ m.fresh := fun e => by subst e; exact absurd hy (Nat.not_succ_le_self _)
    refine ⟨?_, by show upd m.refs _ _ y = _; rw [upd_of_ne _ _ h2]; exact (I.fr y h1).2⟩
    show upd m.env x none y = none
    rw [upd_apply]; split
    · rfl
    · exact (I.fr y h1).1
  · intro y q hq
    show upd m.env x none y = none
    rw [upd_apply]; split
    · rfl
    · by_cases h : y = m.fresh
      · rw [h]; exact hf.1
      · exact I.sep y q (by rw [← hq]; exact (upd_of_ne _ _ h).symm)
  · intro k q hq
    by_cases h : k = m.fresh
    · subst h
      simp at hq; subst hq
      exact ⟨a, by simp, hr⟩
    · obtain ⟨b, h1, h2⟩ := I.rcs k q (by rw [← hq]; exact (upd_of_ne _ _ h).symm)
      exact ⟨b, hold h1, h2⟩
  · intro k b h
    by_cases hk : k = m.fresh
    · subst hk
      simp at h; subst h
      refine ⟨⟨r, by simp⟩, ho.used, ?_⟩
      rintro ⟨y, hd, h1, h2⟩
      obtain ⟨g1, g2⟩ := henv h1
      have hoy := I.hnd y hd g2
      have := I.inv.root_disjoint hoy.root ho.root h2 (.refl _)
      exact g1 (I.dist y x hd _ g2 hx this)
    · rw [upd_of_ne _ _ hk] at h
      refine ⟨?_, (I.tgt k b h).2.1, fun h' => (I.tgt k b h).2.2 (hmono h')⟩
      obtain ⟨q, hq⟩ := (I.tgt k b h).1
      exact ⟨q, by show upd m.refs _ _ k = _; rw [upd_of_ne _ _ hk]; exact hq⟩
  · intro b h1 h2
    rcases I.roots b h1 h2 with ⟨y, hd, g1, g2⟩ | ⟨k, h⟩
    · by_cases e : y = x
      · subst e
        rw [hx] at g1; cases g1
        simp only [Handle.addr] at g2
        exact .inr ⟨m.fresh, by simp [g2]⟩
      · exact .inl ⟨y, hd, by show upd m.env x none y = _; rw [upd_of_ne _ _ e]; exact g1, g2⟩
    · exact .inr ⟨k, hold h⟩
  · intro g k b w hg
    by_cases h : g = m.fresh
    · subst h; simp at hg
    · exact hold (I.guards g k b w (by rw [← hg]; exact (upd_of_ne _ _ h).symm))
  · intro k q hq
    by_cases h : k = m.fresh
    · subst h; simp at hq
    · obtain ⟨b, h1, h2, h3⟩ := I.wk k q (by rw [← hq]; exact (upd_of_ne _ _ h).symm)
      exact ⟨b, h1, h2, fun hl => ⟨(h3 hl).1, fun h' => (h3 hl).2 (hmono h')⟩⟩

theorem si_fromTree (hm : SI m) {x : Var} {t : RTree (Addr × α)} (hx : m.lookTree x = some t) :
    ∃ m', rstep m (.fromTree x) = .ok m' (.var m.fresh) ∧ SI m' ∧ m'.fresh = m.fresh + 1 ∧ m'.env = upd m.env x none ∧
      (∀ j, j ≠ m.fresh → m'.refs j = m.refs j ∧ m'.look j = m.look j) ∧ m'.look m.fresh = some t ∧
      m'.excl.store = { m.excl.store.set x none with fresh := m.fresh + 1 } := by
  obtain ⟨G, K, T, I, B⟩ := hm
  obtain ⟨a, h1, h2⟩ := I.lookTree_iff.mp hx
  have ho := I.hnd x _ h1
  obtain ⟨r, hr, e1⟩ := intoRc_ok (Z := fun _ => false) (e := extra G m.fresh T) I.st (a := a) ho.used ho.kind
  have I' := I.share h1 hr
  have e2 : intoRc a m.heap = .ok r m.heap := by rw [I.heap]; exact e1
  refine ⟨_, by simp only [rstep, RMachine.takeTree, h1, RMachine.run, e2], ⟨G, K, _, I', ?_⟩, rfl, rfl, fun j hj => ⟨upd_of_ne _ _ hj, ?_⟩, ?_, ?_⟩
  · refine B.step (fun b w => ?_) fun b hb => .inl ⟨hb, rfl⟩
    show gcount (upd m.refs m.fresh (some (.rc r))) (m.fresh + 1) b w = _
    rw [gcount_bind fun k hk => (I.fr k hk).2]; simp [isGuard]
  · exact I.look_congr I' (upd_of_ne _ _ hj) fun _ _ _ _ => ⟨rfl, rfl⟩
  · exact I'.look_of (by simp) h2
  · simp only [Machine.store, Store.set, Store.mk.injEq]
    refine ⟨?_, rfl, rfl⟩
    funext y
    by_cases e : y = x
    · subst e
      simp [Machine.view, RMachine.excl]
    · rw [if_neg e]
      exact I.view_congr I' (upd_of_ne _ _ e) fun _ _ _ _ => ⟨rfl, rfl⟩

/-! ### From a shared root to a tree -/

theorem RInv.unshare (I : RInv m G K T) {k : Var} {a : Addr} (hk : T k = some a) (hup : G.up a = none) (hg : m.guarded k = false)
    (h1 : ∀ j b, j ≠ k → T j = some b → ¬ Reach K a b) (h2 : ∀ w c, m.refs w = some (.weak (.scattered c)) → ¬ Reach K a c) :
    RInv ⟨m.heap, upd m.env m.fresh (some (.tree a)), upd m.refs k none, m.fresh + 1⟩ G K (upd T k none) := by
  obtain ⟨ha, hx⟩ := (I.tgt k a hk).2
  have hf := I.fr m.fresh (Nat.le_refl _)
  have hlt := I.lt hk
  have hkf : k ≠ m.fresh := Nat.ne_of_lt hlt
  have hT' : ∀ {j b}, upd T k none j = some b → j ≠ k ∧ T j = some b := by
    intro j b h
    by_cases e : j = k
    · subst e; simp at h
    · rw [upd_of_ne _ _ e] at h; exact ⟨e, h⟩
  have hr' : ∀ {j r}, upd m.refs k none j = some r → j ≠ k ∧ m.refs j = some r := by
    intro j b h
    by_cases e : j = k
    · subst e; simp at h
    · rw [upd_of_ne _ _ e] at h; exact ⟨e, h⟩
  have henv : ∀ {y hd}, upd m.env m.fresh (some (.tree a)) y = some hd → (y = m.fresh ∧ hd = .tree a) ∨ (y ≠ m.fresh ∧ m.env y = some hd) := by
    intro y hd h
    by_cases e : y = m.fresh
    · subst e; simp at h; exact .inl ⟨rfl, h.symm⟩
    · rw [upd_of_ne _ _ e] at h; exact .inr ⟨e, h⟩
  have hE : extra G (m.fresh + 1) (upd T k none) = extra G m.fresh T := by
    funext b
    have e0 : nh (m.fresh + 1) (upd T k none) b = nh m.fresh (upd T k none) b := by
      rw [nh_ext (Nat.le_succ _)]
      intro j hj
      rw [upd_apply]; split
      · rfl
      · exact I.tnone hj
    simp only [extra, e0, nh_unbind hk hlt]
    by_cases e : a = b
    · subst e
      have : nh m.fresh (upd T k none) a = 0 := by
        by_contra h
        obtain ⟨j, -, hj⟩ := nh_pos.mp h
        obtain ⟨g1, g2⟩ := hT' hj
        exact h1 j a g1 g2 (.refl _)
      rw [nh_unbind hk hlt] at this
      simp only [if_true] at this
      simp only [hup, if_true]; omega
    · simp [e]
  have hexcl : ∀ {b}, Excl (upd m.env m.fresh (some (.tree a))) K b → Excl m.env K b ∨ Reach K a b := by
    rintro b ⟨y, hd, g1, g2⟩
    rcases henv g1 with ⟨-, rfl⟩ | ⟨-, g⟩
    · exact .inr g2
    · exact .inl ⟨y, hd, g, g2⟩
  refine ⟨by show m.heap = _; rw [hE]; exact I.heap, I.inv, I.st, I.kv, ?_, ?_, ?_, ?_, ?_, ?_, ?_, ?_, ?_⟩
  · intro y hd h
    rcases henv h with ⟨-, rfl⟩ | ⟨-, h⟩
    · exact ⟨ha, hup, I.isV hk⟩
    · exact I.hnd y hd h
  · intro y z hy hz h1 h2 e
    rcases henv h1 with ⟨rfl, rfl⟩ | ⟨-, h1⟩ <;> rcases henv h2 with ⟨rfl, rfl⟩ | ⟨-, h2⟩
    · rfl
    · simp only [Handle.addr] at e
      exact absurd ⟨z, hz, h2, by rw [e]; exact .refl _⟩ hx
    · simp only [Handle.addr] at e
      exact absurd ⟨y, hy, h1, by rw [← e]; exact .refl _⟩ hx
    · exact I.dist y z hy hz h1 h2 e
  · intro y hy
    have g1 : m.fresh ≤ y := Nat.le_of_succ_le hy
    have g2 : y ≠ m.fresh := fun e => by subst e; exact absurd hy (Nat.not_succ_le_self _)
    refine ⟨by show upd m.env _ _ y = _; rw [upd_of_ne _ _ g2]; exact (I.fr y g1).1, ?_⟩
    show upd m.refs k none y = none
    rw [upd_apply]; split
    · rfl
    · exact (I.fr y g1).2
  · intro y q hq
    obtain ⟨g1, g2⟩ := hr' hq
    have : y ≠ m.fresh := Nat.ne_of_lt (I.refs_lt g2)
    show upd m.env _ _ y = _
    rw [upd_of_ne _ _ this]; exact I.sep y q g2
  · intro j q hq
    obtain ⟨g1, g2⟩ := hr' hq
    obtain ⟨b, g3, g4⟩ := I.rcs j q g2
    exact ⟨b, by rw [upd_of_ne _ _ g1]; exact g3, g4⟩
  · intro j b hj
    obtain ⟨g1, g2⟩ := hT' hj
    obtain ⟨⟨r, hr⟩, g4, g5⟩ := I.tgt j b g2
    refine ⟨⟨r, by show upd m.refs k none j = _; rw [upd_of_ne _ _ g1]; exact hr⟩, g4, fun h => ?_⟩
    rcases hexcl h with h | h
    · exact g5 h
    · exact h1 j b g1 g2 h
  · intro b hb hn
    rcases I.roots b hb hn with ⟨y, hd, g1, g2⟩ | ⟨j, hj⟩
    · have : y ≠ m.fresh := fun e => by rw [e, hf.1] at g1; simp at g1
      exact .inl ⟨y, hd, by show upd m.env _ _ y = _; rw [upd_of_ne _ _ this]; exact g1, g2⟩
    · by_cases e : j = k
      · subst e
        rw [hk] at hj; cases hj
        exact .inl ⟨m.fresh, _, upd_self _ _ _, rfl⟩
      · exact .inr ⟨j, by rw [upd_of_ne _ _ e]; exact hj⟩
  · intro g j b w hj
    obtain ⟨g1, g2⟩ := hr' hj
    have : j ≠ k := by rintro rfl; exact guarded_false I hg g b w g2
    rw [upd_of_ne _ _ this]
    exact I.guards g j b w g2
  · intro j q hq
    obtain ⟨g1, g2⟩ := hr' hq
    obtain ⟨b, rfl, g4, g5⟩ := I.wk j q g2
    refine ⟨b, rfl, g4, fun hl => ⟨(g5 hl).1, fun h => ?_⟩⟩
    rcases hexcl h with h | h
    · exact (g5 hl).2 h
    · exact h2 j b g2 h

theorem treeFromNode_id {h : Heap α} {a : Addr} (hl : h.live a = true) (hu : h.up a = none) : treeFromNode a h = .ok a h := by
  simp only [treeFromNode, M.bind_apply, setUp, wr, hl, if_true, Res.bind_ok, M.pure_apply]
  congr 1
  rw [upd_id hu]

theorem RInv.isRoot_ok (I : RInv m G K T) (B : GInv m) {k : Var} {a : Addr} {r : RcRef} (hk : T k = some a) (hr : m.refs k = some (.rc r)) (hg : ¬ m.Guarded a true) :
    isRootRc r m.heap = .ok (G.up a).isNone m.heap := by
  obtain ⟨b, h1, h2⟩ := I.rcs k r hr
  rw [hk] at h1; cases h1
  obtain ⟨ha, hx⟩ := (I.tgt k a hk).2
  rw [I.heap]
  refine withShared_read h2 ha (B.shared I ha hg) ?_
  simp only [M.bind_apply, I.parent_eq ha hx, Res.bind_ok, M.pure_apply]

theorem RInv.view_tree (I : RInv m G K T) {y : Var} {a : Addr} {t : RTree α} (h : m.env y = some (.tree a)) (hd : Den G.val K a t) : m.excl.view y = some (.tree t) := by
  obtain ⟨v, q1, q2⟩ := I.hden h
  rw [q2]
  cases v with
  | tree t' => rw [Den.unique q1 hd]
  | forest _ => exact q1.elim
  | iter _ => exact q1.elim

/-- A new exclusive tree. -/
theorem RInv.store_bind {m' : RMachine α} {G' : Heap α} {K' T'} (I : RInv m G K T) (I' : RInv m' G' K' T') {a : Addr} {t : RTree α}
    (he : m'.env = upd m.env m.fresh (some (.tree a))) (hf : m'.fresh = m.fresh + 1) (hl : G'.log = G.log) (hd : Den G'.val K' a t)
    (h : ∀ x hd, m.env x = some hd → ∀ b, Reach K hd.addr b → K' b = K b ∧ G'.data b = G.data b) : m'.excl.store = m.excl.store.bind (.tree t) := by
  simp only [Machine.store, Store.bind, Store.mk.injEq]
  refine ⟨?_, hf, ?_⟩
  · funext y
    by_cases e : y = m.fresh
    · subst e
      show m'.excl.view m.fresh = if m.fresh = m.fresh then _ else _
      rw [if_pos rfl]
      exact I'.view_tree (by rw [he]; simp) hd
    · show m'.excl.view y = if y = m.fresh then _ else _
      rw [if_neg e]
      exact I.view_congr I' (by rw [he]; exact upd_of_ne _ _ e) fun hd => h y hd
  · show m'.heap.log = m.heap.log
    rw [I'.heap, I.heap]; exact hl

/-- `into_tree` of a root without other handles to its nodes. -/
theorem si_intoTree (hm : SI m) {k : Var} {t : RTree (Addr × α)} (hk : m.look k = some t) (hg : m.guarded k = false) (hp : ¬ m.HasParent t.data.1)
    (h1 : ∀ j b, j ≠ k → m.nodeOf j = some b → b ∉ t.ids) (h2 : ∀ w c, m.refs w = some (.weak (.scattered c)) → c ∉ t.ids) :
    ∃ m', rstep m (.intoTree k) = .ok m' (.var m.fresh) ∧ SI m' ∧ m'.fresh = m.fresh + 1 ∧ m'.refs = upd m.refs k none ∧
      (∀ j, j ≠ k → m'.look j = m.look j) ∧ m'.lookTree m.fresh = some t ∧ m'.excl.store = m.excl.store.bind (.tree t.plain) := by
  obtain ⟨G, K, T, I, B⟩ := hm
  obtain ⟨a, g1, g2⟩ := I.look_iff.mp hk
  obtain ⟨ha, hx⟩ := (I.tgt k a g1).2
  rw [g2.root, I.hasParent ha hx] at hp
  have hup : G.up a = none := by simpa using hp
  have h1' : ∀ j b, j ≠ k → T j = some b → ¬ Reach K a b := fun j b e hj hr => h1 j b e (by rw [I.nodeOf]; exact hj) (den_reach_pre g2 hr)
  have I' := I.unshare g1 hup hg h1' (fun w c hw hr => h2 w c hw (den_reach_pre g2 hr))
  have hng : ∀ w, ¬ m.Guarded a w := by
    rintro w ⟨g, j, hj⟩
    have h3 := I.guards g j a w hj
    by_cases e : j = k
    · subst e; exact guarded_false I hg g a w hj
    · exact h1' j a e h3 (.refl _)
  obtain ⟨r, h3, h4⟩ := I.ref g1
  have e1 := I.isRoot_ok B g1 h3 (hng true)
  rw [hup] at e1
  have hl := (I.used'.mpr ha).1
  have hu' : m.heap.up a = none := by rw [I.heap]; exact hup
  have hb := B.free I ha hng
  have e2 : intoTree r m.heap = .ok a m.heap := by
    simp only [intoTree, onPanic, intoTreeRc, M.bind_apply, e1, Res.bind_ok, Option.isNone_none, if_true]
    cases r with
    | scattered o =>
      have : withMut (.scattered o) (fun a => treeFromNode a) m.heap = .ok a m.heap := by
        rw [I.heap]
        refine (withMut_ok (H' := bumpE (extra G m.fresh T) (G.bor a (-1))) h4 ha hb (treeFromNode_id (h := bumpE (extra G m.fresh T) (G.bor a (-1))) ha.1 hup) ha.1).trans ?_
        congr 1
        show bumpE _ ((G.bor a (-1)).bor a 0) = _
        rw [bor_bor, bor_self hb]
      simp only [this]
    | piled v i =>
      have : vecNode v i m.heap = .ok a m.heap := by rw [I.heap]; exact slot_ok h4 ha.1
      simp only [M.bind_apply, this, Res.bind_ok, treeFromNode_id hl hu']
  refine ⟨_, by simp only [rstep, RMachine.onRc, h3, hg, Bool.false_eq_true, if_false, RMachine.run, e2], ⟨G, K, _, I', ?_⟩, rfl, rfl, ?_, ?_, ?_⟩
  · refine B.step (fun b w => ?_) fun b hb => .inl ⟨hb, rfl⟩
    show gcount (upd m.refs k none) (m.fresh + 1) b w = _
    rw [gcount_ext (Nat.le_succ _), I.gcount_unbind h3]
    intro j hj
    rw [upd_apply]; split
    · rfl
    · exact (I.fr j hj).2
  · intro j hj
    exact I.look_congr I' (upd_of_ne _ _ hj) fun _ _ _ _ => ⟨rfl, rfl⟩
  · exact I'.lookTree_iff.mpr ⟨a, upd_self _ _ _, g2⟩
  · exact I.store_bind I' rfl rfl rfl g2.plain fun _ _ _ _ _ => ⟨rfl, rfl⟩

/-- `into_tree` of a node with a parent panics; the handle goes away. -/
theorem si_intoTree_panic (hm : SI m) {k : Var} {a : Addr} (hk : m.nodeOf k = some a) (hp : m.HasParent a) (hgm : ¬ m.Guarded a true) {m' : RMachine α} (hd : rstep m (.drop k) = .ok m' .unit) :
    rstep m (.intoTree k) = .panic m' := by
  obtain ⟨G, K, T, I, B⟩ := hm
  rw [I.nodeOf] at hk
  obtain ⟨ha, hx⟩ := (I.tgt k a hk).2
  rw [I.hasParent ha hx] at hp
  obtain ⟨r, h3, h4⟩ := I.ref hk
  have e1 := I.isRoot_ok B hk h3 hgm
  have hup : (G.up a).isNone = false := by cases h : G.up a <;> simp_all
  rw [hup] at e1
  simp only [rstep, h3] at hd
  split at hd
  · simp at hd
  · rename_i hg
    simp only [RMachine.run] at hd
    cases hh : dropHandle r m.heap with
    | ok u H =>
      rw [hh] at hd
      simp only [Outcome.ok.injEq, and_true] at hd
      simp [rstep, RMachine.onRc, h3, hg, RMachine.run, intoTree, onPanic, intoTreeRc, M.bind_apply, e1, M.throw, hh, hd]
    | err e H =>
      rw [hh] at hd
      cases e <;> simp at hd

/-! ### Deep clones -/

/-- The same memory, with further addresses given out. -/
def BumpOf (G h : Heap α) : Prop := ∃ na nv, h = { G with nextAddr := na, nextVec := nv }

theorem refFull' (G : Heap α) (K : Addr → List Addr) :
    SrcFull (splittedNext refSrc) (dropIters refSrc) (SrcR (RefI (fun h K' => K' = K ∧ Inv h K ∧ SInv h ∧ BumpOf G h)))
      (fun h => Inv h K ∧ SInv h ∧ BumpOf G h) := by
  refine ⟨(refSpec (fun h K' hp => by rw [hp.1]; exact hp.2.1)).ok framed_refSrc, ?_, ?_, framed_refSrc.dropIters, ?_⟩
  · rintro s h xs ⟨tss, ⟨K', ⟨-, -, hS, -⟩, -⟩, -⟩; exact hS
  · rintro s h xs n ⟨tss, ⟨K', ⟨rfl, hI, hS, na, nv, rfl⟩, H⟩, e⟩
    exact ⟨tss, ⟨K', ⟨rfl, bumped_inv hI n, bumped_sinv hS n, _, _, rfl⟩, H.imp fun _ _ h => h.bump n⟩, e⟩
  · rintro s h ⟨tss, ⟨K', ⟨rfl, hI, hS, hB⟩, -⟩, -⟩
    exact ⟨h, refDrop s h, hI, hS, hB⟩

/-- What a deep clone leaves behind. -/
structure Cloned (G : Heap α) (K : Addr → List Addr) (G' : Heap α) (K' : Addr → List Addr) (a : Addr) (t : RTree α) : Prop where
  inv : Inv G' K'
  st : SInv G'
  mono : Mono G G'
  log : G'.log = G.log
  keep : ∀ b, G.Used b → G'.Used b ∧ K' b = K b ∧ G'.data b = G.data b ∧ G'.up b = G.up b
  vec : ∀ v nv, G.vec v = some nv → G'.vec v = some nv
  isNew : ¬ G.Used a
  used : G'.Used a
  up : G'.up a = none
  isVal : G'.IsVal a
  only : ∀ b, G'.Used b → G'.up b = none → G.Used b ∨ b = a
  kv : (∀ b c, c ∈ K b → G.IsVal c) → ∀ b c, c ∈ K' b → G'.IsVal c
  den : Den G'.val K' a t

theorem mapBfs_cloned (hI : Inv G K) (hS : SInv G) {n : Addr} {t : RTree α} (hn : G.Used n) (hd : Den G.val K n t) (f : Nat → α → α) :
    ∃ a G' K', mapBfs f n G = .ok a G' ∧ Cloned G K G' K' a (RTree.updLevel f t) := by
  have hF := (refFull' G K).map f
  have hs : SrcR (RefI (fun h K' => K' = K ∧ Inv h K ∧ SInv h ∧ BumpOf G h)) (bfsStart n) G (visits [t]) :=
    ⟨[[t]], ⟨K, ⟨rfl, hI, hS, _, _, rfl⟩, .cons ⟨[n], once_at hn, by simpa using hn, by simpa using hd⟩ .nil⟩, by simp⟩
  obtain ⟨a, h', e, B⟩ := treeFromBfs_ok hF (s := (bfsStart n, 0)) (t := RTree.updLevel f t) ⟨_, hs, by simpa using visits_updLevel f t⟩
  have hM : Mono G h' := by
    have := (rob_mapBfs f n (extCtx (fun _ => 0) G) G (bumpE (fun _ => 0) G) (hrel_bump hS (by simp))).1
    have e' : mapBfs f n G = .ok a h' := e
    rw [e'] at this; exact this
  refine ⟨a, h', ?_⟩
  obtain ⟨hs', F, KF, w, N, rfl, hn', Fl, A, hI', hS', na, nv, rfl⟩ := B.ex
  have hN : 0 < N := by omega
  have hPb : blkP a N a = true := by have := blkP_add (base := a) hN; simpa using this
  have hUb : F.Used a := Fl.all _ hPb
  have hout : ∀ {b}, G.Used b → blkP a N b = false := fun hb => A.notP hb.1
  have inKF : ∀ {a c}, c ∈ KF a → F.Used c ∧ F.Used a ∧ F.up c = some a := by
    intro a c hc
    have h1 := (Fl.b.l.mem a c).mp hc
    exact ⟨h1.1, Fl.b.l.upU a c h1.1 (by simp) h1.2.2, h1.2.2⟩
  have hden : DenL (join (blkP a N) (blkQ w) { G with nextAddr := na, nextVec := nv } F).val (joinK (blkP a N) K KF) (joinK (blkP a N) K KF a) (RTree.updLevel f t).kids := by
    have : joinK (blkP a N) K KF a = KF a := by simp [joinK, hPb]
    rw [this]
    refine Fl.den.congr (fun c hc x hr => ?_)
    have hxU : F.Used x := by
      have hcU := (inKF hc).1
      clear hUb this hc
      induction hr with
      | refl => exact hcU
      | step h2 _ ih => exact ih (inKF h2).1
    have hp := Fl.b.inP hxU
    exact ⟨by simp [joinK, hp], join_val_in hp⟩
  have hva : (join (blkP a N) (blkQ w) { G with nextAddr := na, nextVec := nv } F).val a = some (RTree.updLevel f t).data := by
    rw [join_val_in hPb]; simp [Heap.val, Fl.dat, Data.val?]
  refine ⟨joinK (blkP a N) K KF, e, assemble_inv hI' A Fl.b Fl.sz, assemble_sinv hS' A Fl.b hN Fl.all, hM, rfl, ?_, ?_, ?_, ?_, ?_, ?_, ?_, ?_, ?_⟩
  · intro b hb
    have hp := hout hb
    exact ⟨(join_used A Fl.b).mpr (.inl hb), by simp [joinK, hp], by simp [join, hp], by simp [join, hp]⟩
  · intro v nvv hv
    have : blkQ w v = false := by
      cases hq : blkQ w v with
      | false => rfl
      | true => have := A.vec v hq; simp only at this; rw [hv] at this; simp at this
    simp [join, this, hv]
  · intro hb; rw [hout hb] at hPb; simp at hPb
  · exact (join_used A Fl.b).mpr (.inr hUb)
  · simp [join, hPb, Fl.root]
  · exact Heap.isVal_iff.mpr ⟨_, hva⟩
  · intro b hb hu
    rcases (join_used A Fl.b).mp hb with h | h
    · exact .inl h
    · right
      have hp := Fl.b.inP h
      simp only [join, hp, if_true] at hu
      exact Fl.only b h hu
  · intro kv b c hc
    simp only [joinK] at hc
    split at hc
    · obtain ⟨h1, h2, h3⟩ := inKF hc
      have hp := Fl.b.inP h1
      have : F.IsVal c := by
        refine Fl.isVal c h1 ?_
        rintro rfl
        rw [Fl.root] at h3; simp at h3
      simpa [Heap.IsVal, join, hp] using this
    · have hp : blkP a N c = false := hout (hI.used_of_mem hc)
      have := kv b c hc
      simpa [Heap.IsVal, join, hp] using this
  · have : RTree.updLevel f t = .node (RTree.updLevel f t).data (RTree.updLevel f t).kids := (RTree.eta _).symm
    rw [this, Den_node]
    exact ⟨hva, hden⟩

theorem Cloned.is {G' : Heap α} {K'} {a : Addr} {t : RTree α} (C : Cloned G K G' K' a t) {r : RcRef} {b : Addr} (hb : G.Used b) (h : r.Is G b) : r.Is G' b := by
  have hd := (C.keep b hb).2.2.1
  cases r with
  | scattered o => exact ⟨h.1, by rw [hd]; exact h.2⟩
  | piled v i =>
    obtain ⟨nv, d, h1, h2, h3, h4⟩ := h
    exact ⟨nv, d, C.vec v nv h1, h2, h3, by rw [hd]; exact h4⟩

theorem RInv.clone_reach (I : RInv m G K T) {G' : Heap α} {K'} {a : Addr} {t : RTree α} (C : Cloned G K G' K' a t) {b c : Addr} (hb : G.Used b) :
    Reach K' b c ↔ Reach K b c :=
  reach_congr fun x hx => (C.keep x (I.inv.reach_used hb hx)).2.1

theorem RInv.cloned (I : RInv m G K T) {G' : Heap α} {K'} {a : Addr} {t : RTree α} (C : Cloned G K G' K' a t) :
    RInv ⟨bumpE (extra G m.fresh T) G', upd m.env m.fresh (some (.tree a)), m.refs, m.fresh + 1⟩ G' K' T := by
  have hf := I.fr m.fresh (Nat.le_refl _)
  have henv : ∀ {y hd}, upd m.env m.fresh (some (.tree a)) y = some hd → (y = m.fresh ∧ hd = .tree a) ∨ (y ≠ m.fresh ∧ m.env y = some hd) := by
    intro y hd h
    by_cases e : y = m.fresh
    · subst e; simp at h; exact .inl ⟨rfl, h.symm⟩
    · rw [upd_of_ne _ _ e] at h; exact .inr ⟨e, h⟩
  have hE : extra G' (m.fresh + 1) T = extra G m.fresh T := by
    have h1 : extra G' (m.fresh + 1) T = extra G (m.fresh + 1) T :=
      extra_congr fun k b hk => by rw [(C.keep b (I.tgt k b hk).2.1).2.2.2]
    rw [h1]
    funext b; simp only [extra, nh_ext (Nat.le_succ _) fun k => I.tnone]
  have hexcl : ∀ {b}, G.Used b → Excl (upd m.env m.fresh (some (.tree a))) K' b → Excl m.env K b := by
    rintro b hb ⟨y, hd, g1, g2⟩
    rcases henv g1 with ⟨-, rfl⟩ | ⟨-, g⟩
    · exfalso
      -- the new root reaches no old node
      obtain ⟨r, q1, q2, q3⟩ := I.inv.exists_root hb
      have q4 : Reach K' r b := (I.clone_reach C q1).mpr q3
      have q5 : G'.up r = none := by rw [(C.keep r q1).2.2.2]; exact q2
      have q6 : r = a := C.inv.root_disjoint q5 C.up q4 g2
      exact C.isNew (q6 ▸ q1)
    · exact ⟨y, hd, g, (I.clone_reach C (I.hnd y hd g).used).mp g2⟩
  refine ⟨by show bumpE _ _ = _; rw [hE], C.inv, C.st, C.kv I.kv, ?_, ?_, ?_, ?_, ?_, ?_, ?_, I.guards, ?_⟩
  · intro y hd h
    rcases henv h with ⟨-, rfl⟩ | ⟨-, h⟩
    · exact ⟨C.used, C.up, C.isVal⟩
    · have ho := I.hnd y hd h
      obtain ⟨g1, g2, g3, g4⟩ := C.keep _ ho.used
      refine ⟨g1, g4.trans ho.root, ?_⟩
      have := ho.kind
      cases hd <;> simp only [Handle.addr] at g3 <;> simpa only [HKind, Heap.IsVal, Heap.val, g3] using this
  · intro y z hy hz h1 h2 e
    rcases henv h1 with ⟨rfl, rfl⟩ | ⟨-, h1⟩ <;> rcases henv h2 with ⟨rfl, rfl⟩ | ⟨-, h2⟩
    · rfl
    · have := (I.hnd z hz h2).used
      rw [← e] at this; exact absurd this C.isNew
    · have := (I.hnd y hy h1).used
      rw [e] at this; exact absurd this C.isNew
    · exact I.dist y z hy hz h1 h2 e
  · intro y hy
    have g1 : m.fresh ≤ y := Nat.le_of_succ_le hy
    have g2 : y ≠ m.fresh := fun e => by subst e; exact absurd hy (Nat.not_succ_le_self _)
    exact ⟨by show upd m.env _ _ y = _; rw [upd_of_ne _ _ g2]; exact (I.fr y g1).1, (I.fr y g1).2⟩
  · intro y q hq
    have : y ≠ m.fresh := Nat.ne_of_lt (I.refs_lt hq)
    show upd m.env _ _ y = _
    rw [upd_of_ne _ _ this]; exact I.sep y q hq
  · intro j q hq
    obtain ⟨b, g3, g4⟩ := I.rcs j q hq
    exact ⟨b, g3, C.is (I.tgt j b g3).2.1 g4⟩
  · intro j b hj
    obtain ⟨hr, g4, g5⟩ := I.tgt j b hj
    exact ⟨hr, (C.keep b g4).1, fun h => g5 (hexcl g4 h)⟩
  · intro b hb hn
    rcases C.only b hb hn with h | rfl
    · rcases I.roots b h (by rw [← (C.keep b h).2.2.2]; exact hn) with ⟨y, hd, g1, g2⟩ | h
      · have : y ≠ m.fresh := fun e => by rw [e, hf.1] at g1; simp at g1
        exact .inl ⟨y, hd, by show upd m.env _ _ y = _; rw [upd_of_ne _ _ this]; exact g1, g2⟩
      · exact .inr h
    · exact .inl ⟨m.fresh, _, upd_self _ _ _, rfl⟩
  · intro j q hq
    obtain ⟨b, rfl, g4, g5⟩ := I.wk j q hq
    refine ⟨b, rfl, Nat.lt_of_lt_of_le g4 C.mono.nextAddr, fun hl => ?_⟩
    obtain ⟨⟨d, hd⟩, g6⟩ := g5 (C.mono.live b g4 hl)
    have hu : G.Used b := ⟨C.mono.live b g4 hl, by rw [hd]; rfl⟩
    exact ⟨⟨d, by rw [(C.keep b hu).2.2.1]; exact hd⟩, fun h => g6 (hexcl hu h)⟩

/-- `deep_clone`. -/
theorem si_deepClone (hm : SI m) {k : Var} {t : RTree (Addr × α)} (f : Nat → α → α) (hk : m.look k = some t) (hg : ¬ m.Guarded t.data.1 true) :
    ∃ m', rstep m (.deepClone k f) = .ok m' (.var m.fresh) ∧ SI m' ∧ m'.fresh = m.fresh + 1 ∧ m'.refs = m.refs ∧
      (∀ j, m'.look j = m.look j) ∧ m'.excl.store = m.excl.store.bind (.tree (RTree.updLevel f t.plain)) := by
  obtain ⟨G, K, T, I, B⟩ := hm
  obtain ⟨a, g1, g2⟩ := I.look_iff.mp hk
  obtain ⟨ha, hx⟩ := (I.tgt k a g1).2
  rw [g2.root] at hg
  obtain ⟨r, h3, h4⟩ := I.ref g1
  have I1 := I.bor a (G.borrow a + 1)
  obtain ⟨c, G', K', e1, C⟩ := mapBfs_cloned I1.inv I1.st (n := a) (t := t.plain) ha g2.plain f
  have C1 : Cloned G K (G'.bor a (G.borrow a)) K' c (RTree.updLevel f t.plain) := by
    refine ⟨C.inv.bor _ _, ?_, ?_, C.log, C.keep, C.vec, C.isNew, C.used, C.up, C.isVal, C.only, C.kv, C.den⟩
    · exact ⟨C.st.liveB, C.st.vecB, C.st.cnt, C.st.pos, C.st.disj, C.st.owner, C.st.tight⟩
    · refine ⟨C.mono.nextAddr, C.mono.nextVec, C.mono.live, ?_, ?_⟩
      · intro x hx
        by_cases e : x = a
        · subst e; simp [Heap.bor]
        · have := C.mono.borrow x hx
          simp only [Heap.bor, upd_of_ne _ _ e] at this ⊢
          exact this
      · intro x h1 h2
        have e : x ≠ a := fun e => by subst e; exact absurd (I.st.liveB x ha.1) (Nat.not_lt.mpr h1)
        simp only [Heap.bor, upd_of_ne _ _ e]
        exact C.mono.newB x h1 h2
  have I' := I.cloned C1
  have e2 := lift_ok (rob_mapBfs f a) (e := extra G m.fresh T) I1.st (fun x hx => I.eUsed hx) e1 C.st
    ⟨fun x hx => (C.keep x (I.eUsed hx)).1, fun x hx => by rw [(C.keep x (I.eUsed hx)).2.2.1]⟩
  have e3 : withShared r (fun a => mapBfs f a) m.heap = .ok c (bumpE (extra G m.fresh T) (G'.bor a (G.borrow a))) := by
    rw [I.heap]
    refine (withShared_ok h4 ha (B.shared I ha hg) e2 (C.keep a ha).1.1).trans ?_
    congr 1
    have : G'.borrow a = G.borrow a + 1 := by
      rw [C.mono.borrow a (I.st.liveB a ha.1)]; simp [Heap.bor]
    show bumpE _ (G'.bor a (G'.borrow a - 1)) = _
    rw [this]; simp
  refine ⟨_, by simp only [rstep, RMachine.onRc, h3, RMachine.run, e3], ⟨_, K', T, I', ?_⟩, rfl, rfl, ?_, ?_⟩
  · refine B.step (fun b w => ?_) ?_
    · show gcount m.refs (m.fresh + 1) b w = _
      rw [gcount_ext (Nat.le_succ _) fun k hk => (I.fr k hk).2]
    · intro b hb
      have hb' : G'.live b = true := hb
      by_cases hlt : b < G.nextAddr
      · exact .inl ⟨by rw [I.heap]; exact C1.mono.live b hlt hb', by rw [I.borrow']; exact C1.mono.borrow b hlt⟩
      · exact .inr ⟨C1.mono.newB b (Nat.le_of_not_lt hlt) (C1.st.liveB b hb'), fun w => I.gcount_zero (fun h => hlt (I.st.liveB b h.1)) w⟩
  · intro j
    refine I.look_congr I' rfl fun b hb x hr => ?_
    obtain ⟨q1, q2, q3, q4⟩ := C1.keep x (I.inv.reach_used (I.tgt j b hb).2.1 hr)
    exact ⟨q2, q3⟩
  · refine I.store_bind I' rfl rfl C1.log C1.den fun x hd h b hr => ?_
    obtain ⟨q1, q2, q3, q4⟩ := C1.keep b (I.inv.reach_used (I.hnd x hd h).used hr)
    exact ⟨q2, q3⟩

/-! ### Calls on exclusive values -/

theorem si_excl (hm : SI m) (op : Op α) :
    (∃ m' o, rstep m (.excl op) = .ok m' o ∧ specStep m.excl.store op = .ok m'.excl.store o ∧ SI m' ∧ m'.refs = m.refs ∧ ∀ j, m'.look j = m.look j) ∨
    (∃ m', rstep m (.excl op) = .panic m' ∧ specStep m.excl.store op = .panic m'.excl.store ∧ SI m' ∧ m'.refs = m.refs ∧ ∀ j, m'.look j = m.look j) ∨
    (rstep m (.excl op) = .rejected ∧ specStep m.excl.store op = .rejected) := by
  obtain ⟨G, K, T, I, B⟩ := hm
  have h := I.excl_step op
  cases h1 : step m.excl op with
  | ok m' o =>
    cases h2 : specStep m.excl.store op with
    | ok S o' =>
      rw [h1, h2] at h
      obtain ⟨rfl, rfl, G', K', e, I', hk, hf⟩ := h
      refine .inl ⟨_, o, by simp only [rstep, h1], rfl, ⟨G', K', T, I', ?_⟩, rfl, fun j => I.keep_look I' hk j⟩
      rw [e]; exact B.mono I hk.mono I'.st hf
    | panic S => rw [h1, h2] at h; exact h.elim
    | rejected => rw [h1, h2] at h; exact h.elim
    | bad => rw [h1, h2] at h; exact h.elim
  | panic m' =>
    cases h2 : specStep m.excl.store op with
    | panic S =>
      rw [h1, h2] at h
      obtain ⟨rfl, G', K', e, I', hk, hf⟩ := h
      refine .inr (.inl ⟨_, by simp only [rstep, h1], rfl, ⟨G', K', T, I', ?_⟩, rfl, fun j => I.keep_look I' hk j⟩)
      rw [e]; exact B.mono I hk.mono I'.st hf
    | ok S o' => rw [h1, h2] at h; exact h.elim
    | rejected => rw [h1, h2] at h; exact h.elim
    | bad => rw [h1, h2] at h; exact h.elim
  | rejected =>
    cases h2 : specStep m.excl.store op with
    | rejected => exact .inr (.inr ⟨by simp only [rstep, h1], rfl⟩)
    | ok S o' => rw [h1, h2] at h; exact h.elim
    | panic S => rw [h1, h2] at h; exact h.elim
    | bad => rw [h1, h2] at h; exact h.elim
  | bad => rw [h1] at h; exact h.elim

end
end Trees
