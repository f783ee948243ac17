import Verif.Proof.RcPush
import Verif.Model.RcView
/-
Calls through handles: reading, getting further handles.
-/
namespace Trees
set_option linter.unusedSimpArgs false
set_option linter.unusedVariables false
variable {α β γ : Type}
open Classical

/-- A new shared value in the next variable; nothing else changes. -/
structure Adds (m m' : RMachine α) : Prop where
  si : SI m'
  fresh : m'.fresh = m.fresh + 1
  refs : ∀ j, j ≠ m.fresh → m'.refs j = m.refs j
  looks : ∀ j, j ≠ m.fresh → m'.look j = m.look j
  vars : m'.excl.store.vars = m.excl.store.vars
  log : m'.heap.log = m.heap.log

section
variable {m : RMachine α} {G : Heap α} {K : Addr → List Addr} {T : Var → Option Addr}

mutual
theorem den_reach_pre {h : Heap α} {K} : ∀ {a} {t : RTree (Addr × α)}, Den h.lab K a t → ∀ {x}, Reach K a x → x ∈ t.pre.map Prod.fst
  | a, .node d ts, hd, x, hx => by
    simp only [Den_node] at hd
    cases hx with
    | refl => simp [← (Heap.lab_some.mp hd.1).1]
    | step hc hr => simp only [RTree.pre, List.map_cons, List.mem_cons]; exact .inr (denL_reach_pre hd.2 hc hr)
theorem denL_reach_pre {h : Heap α} {K} : ∀ {cs} {ts : List (RTree (Addr × α))}, DenL h.lab K cs ts → ∀ {c x}, c ∈ cs → Reach K c x →
    x ∈ (RTree.preL ts).map Prod.fst
  | [], ts, hd, c, x, hc, _ => by simp at hc
  | c0 :: cs, [], hd, c, x, hc, _ => by simp at hd
  | c0 :: cs, t :: ts, hd, c, x, hc, hr => by
    simp only [DenL_cons] at hd
    simp only [RTree.preL, List.map_append, List.mem_append]
    rcases List.mem_cons.mp hc with e | hc
    · subst e; exact .inl (den_reach_pre hd.1 hr)
    · exact .inr (denL_reach_pre hd.2 hc hr)
end

/-- The root above a shared node has a handle. -/
theorem RInv.root_handle (I : RInv m G K T) {a : Addr} (ha : G.Used a) (hx : ¬ Excl m.env K a) : ∃ k r, T k = some r ∧ G.up r = none ∧ Reach K r a := by
  obtain ⟨r, h1, h2, h3⟩ := I.inv.exists_root ha
  rcases I.roots r h1 h2 with ⟨x, hd, g1, rfl⟩ | ⟨k, hk⟩
  · exact absurd ⟨x, hd, g1, h3⟩ hx
  · exact ⟨k, r, hk, h2, h3⟩

theorem RInv.hasParent (I : RInv m G K T) {a : Addr} (ha : G.Used a) (hx : ¬ Excl m.env K a) : m.HasParent a ↔ G.up a ≠ none := by
  constructor
  · rintro ⟨j, t, h1, h2⟩
    obtain ⟨b, h3, h4⟩ := I.look_iff.mp h1
    obtain ⟨x, h5, rfl⟩ := List.mem_map.mp h2
    cases t with
    | node d ts =>
      simp only [Den_node] at h4
      obtain ⟨c, hc, hr⟩ := denL_pre_reach h4.2 x h5
      rcases hr.cases_tail with e | ⟨p, g1, g2⟩
      · rw [← e]; rw [I.inv.up_of_mem hc]; simp
      · rw [I.inv.up_of_mem g2]; simp
  · intro h
    obtain ⟨k, r, h1, h2, h3⟩ := I.root_handle ha hx
    obtain ⟨t, ht⟩ := I.den h1
    refine ⟨k, t, I.look_of h1 ht, ?_⟩
    cases t with
    | node d ts =>
      simp only [Den_node] at ht
      cases h3 with
      | refl => exact absurd h2 h
      | step hc hr => exact denL_reach_pre ht.2 hc hr

/-! ### Reading -/

theorem bor_back {h : Heap α} {a : Addr} : (h.bor a (h.borrow a + 1)).bor a ((h.bor a (h.borrow a + 1)).borrow a - 1) = h := by
  rw [bor_bor]
  refine bor_self ?_
  simp [Heap.bor]

theorem withShared_read {Z e} {G : Heap α} {r : RcRef} {a : Addr} (hr : r.Is G a) (hu : G.Used a) (hb : 0 ≤ G.borrow a)
    {f : Addr → M α β} {b : β} (hf : f a (bumpZ Z e (G.bor a (G.borrow a + 1))) = .ok b (bumpZ Z e (G.bor a (G.borrow a + 1)))) :
    withShared r f (bumpZ Z e G) = .ok b (bumpZ Z e G) := by
  refine (withShared_ok hr hu hb hf hu.1).trans ?_
  congr 1
  exact congrArg (bumpZ Z e) bor_back

theorem RInv.read_step (I : RInv m G K T) (B : GInv m) {k : Var} {a : Addr} {f : Addr → M α β} {b : β} {o : β → Out α} (hk : T k = some a) (hg : ¬ m.Guarded a true)
    (hf : ∀ e, f a (bumpE e (G.bor a (G.borrow a + 1))) = .ok b (bumpE e (G.bor a (G.borrow a + 1)))) :
    m.call k (fun r => withShared r f) o = .ok m (o b) := by
  obtain ⟨r, h1, h2⟩ := I.ref hk
  have ha := (I.tgt k a hk).2.1
  have hr : withShared r f m.heap = .ok b m.heap := by
    rw [I.heap]; exact withShared_read (f := f) h2 ha (B.shared I ha hg) (hf (extra G m.fresh T))
  simp only [RMachine.call, RMachine.onRc, h1, RMachine.run, hr]

theorem RInv.conflictS (I : RInv m G K T) (B : GInv m) {k : Var} {a : Addr} {r : RcRef} (hk : T k = some a) (hr : m.refs k = some (.rc r)) (hg : m.Guarded a true) :
    borrowShared r m.heap = .err .panic m.heap := by
  obtain ⟨b, h1, h2⟩ := I.rcs k r hr
  rw [hk] at h1; cases h1
  have ha := (I.tgt k a hk).2.1
  have := borrowShared_conflict (Z := fun _ => false) (e := extra G m.fresh T) h2 ha (B.conflictS I ha hg)
  rw [I.heap]; exact this

theorem RInv.conflictM (I : RInv m G K T) (B : GInv m) {k : Var} {a : Addr} {r : RcRef} {w : Bool} (hk : T k = some a) (hr : m.refs k = some (.rc r)) (hg : m.Guarded a w) :
    borrowMut r m.heap = .err .panic m.heap := by
  obtain ⟨b, h1, h2⟩ := I.rcs k r hr
  rw [hk] at h1; cases h1
  have ha := (I.tgt k a hk).2.1
  have := borrowMut_conflict (Z := fun _ => false) (e := extra G m.fresh T) h2 ha (B.conflict I ha hg)
  rw [I.heap]; exact this

/-- A call that starts with a shared borrow, while there is a `RefMut`. -/
theorem si_conflictS (hm : SI m) {k : Var} {a : Addr} (hk : m.nodeOf k = some a) (hg : m.Guarded a true) {f : Addr → M α β} {env refs}
    {g : β → Heap α → Outcome (RMachine α) α} :
    m.onRc k (fun r => m.run env refs (withShared r f) g) = .panic ⟨m.heap, env, refs, m.fresh⟩ := by
  obtain ⟨G, K, T, I, B⟩ := hm
  rw [I.nodeOf] at hk
  obtain ⟨r, h1, h2⟩ := I.ref hk
  simp only [RMachine.onRc, h1, RMachine.run, withShared, M.bind_apply, I.conflictS B hk h1 hg, Res.bind_err]

/-- A call that starts with an exclusive borrow, while there is a guard. -/
theorem si_conflictM (hm : SI m) {k : Var} {a : Addr} {w : Bool} (hk : m.nodeOf k = some a) (hg : m.Guarded a w) {f : Addr → M α β} {env refs}
    {g : β → Heap α → Outcome (RMachine α) α} :
    m.onRc k (fun r => m.run env refs (withMut r f) g) = .panic ⟨m.heap, env, refs, m.fresh⟩ := by
  obtain ⟨G, K, T, I, B⟩ := hm
  rw [I.nodeOf] at hk
  obtain ⟨r, h1, h2⟩ := I.ref hk
  simp only [RMachine.onRc, h1, RMachine.run, withMut, M.bind_apply, I.conflictM B hk h1 hg, Res.bind_err]

theorem look_node {m : RMachine α} {k : Var} {t : RTree (Addr × α)} (h : m.look k = some t) : m.nodeOf k = some t.data.1 := by
  simp [RMachine.nodeOf, h]

theorem si_data (hm : SI m) {k : Var} {t : RTree (Addr × α)} (hk : m.look k = some t) (hg : ¬ m.Guarded t.data.1 true) :
    rstep m (.data k) = .ok m (.item (some t.data.2)) := by
  obtain ⟨G, K, T, I, B⟩ := hm
  obtain ⟨a, h1, h2⟩ := I.look_iff.mp hk
  have ha := (I.tgt k a h1).2.1
  cases t with
  | node x ts =>
    simp only [Den_node] at h2
    obtain ⟨h3, h4⟩ := Heap.lab_some.mp h2.1
    simp only [RTree.data_node, h3] at hg
    exact I.read_step B (f := dataRef) h1 hg fun e => dataRef_ok (h := bumpE e (G.bor a (G.borrow a + 1))) ha.1 h4

theorem DenL.len {v : Addr → Option β} {K : Addr → List Addr} {cs : List Addr} {ts : List (RTree β)} (h : DenL v K cs ts) : cs.length = ts.length :=
  (DenL_forall₂.mp h).length_eq

theorem si_degree (hm : SI m) {k : Var} {t : RTree (Addr × α)} (hk : m.look k = some t) (hg : ¬ m.Guarded t.data.1 true) :
    rstep m (.degree k) = .ok m (.nat t.kids.length) := by
  obtain ⟨G, K, T, I, B⟩ := hm
  obtain ⟨a, h1, h2⟩ := I.look_iff.mp hk
  have ha := (I.tgt k a h1).2.1
  cases t with
  | node x ts =>
    simp only [Den_node] at h2
    obtain ⟨h3, h4⟩ := Heap.lab_some.mp h2.1
    simp only [RTree.data_node, h3] at hg
    refine I.read_step B (f := degree) h1 hg fun e => ?_
    rw [RTree.kids_node, ← h2.2.len]
    exact degree_len (h := bumpE e (G.bor a (G.borrow a + 1))) ((I.inv.bor _ _).over _ _) ha

theorem si_nodeCount (hm : SI m) {k : Var} {t : RTree (Addr × α)} (hk : m.look k = some t) (hg : ¬ m.Guarded t.data.1 true) :
    rstep m (.nodeCount k) = .ok m (.nat t.count) := by
  obtain ⟨G, K, T, I, B⟩ := hm
  obtain ⟨a, h1, h2⟩ := I.look_iff.mp hk
  have ha := (I.tgt k a h1).2.1
  rw [h2.root] at hg
  refine I.read_step B (f := nodeCount) h1 hg fun e => ?_
  rw [← I.inv.desc_eq ha h2]
  have hv := I.isV h1
  refine nodeCount_ok (h := bumpE e (G.bor a (G.borrow a + 1))) ha.1 ?_
  show (G.data a).isForest = false
  have hiff := isForest_iff I.st ha
  obtain ⟨d, hd⟩ := Heap.isVal_iff.mp hv
  cases hf : (G.data a).isForest with
  | false => rfl
  | true => rw [hiff, hd] at hf; simp at hf

theorem si_hasNoChild (hm : SI m) {k : Var} {t : RTree (Addr × α)} (hk : m.look k = some t) (hg : ¬ m.Guarded t.data.1 true) :
    rstep m (.hasNoChild k) = .ok m (.bool t.kids.isEmpty) := by
  obtain ⟨G, K, T, I, B⟩ := hm
  obtain ⟨a, h1, h2⟩ := I.look_iff.mp hk
  have ha := (I.tgt k a h1).2.1
  rw [h2.root] at hg
  refine I.read_step B (f := hasNoChild) h1 hg fun e => ?_
  have : (G.head a).isNone = t.kids.isEmpty := by
    rw [I.inv.l.head a ha]
    cases t with
    | node x ts =>
      simp only [Den_node] at h2
      have := h2.2.len
      cases hK : K a <;> cases ts <;> simp_all
  rw [← this]
  exact hasNoChild_ok (h := bumpE e (G.bor a (G.borrow a + 1))) ha.1

/-- The node above a shared one is not a forest. -/
theorem RInv.parentV (I : RInv m G K T) {a u : Addr} (hu : a ∈ K u) (hx : ¬ Excl m.env K a) : G.IsVal u := by
  obtain ⟨h1, h2⟩ := I.shared_parent hu hx
  cases hup : G.up u with
  | some p => exact I.kv p u (I.inv.mem_iff.mpr ⟨h1, hup⟩)
  | none =>
    rcases I.roots u h1 hup with ⟨x, hd, g1, rfl⟩ | ⟨k, hk⟩
    · exact absurd ⟨x, hd, g1, .refl _⟩ h2
    · exact I.isV hk

theorem not_forest {D} (hS : SInvD G D) {a : Addr} (ha : G.Used a) (hv : G.IsVal a) : (G.data a).isForest = false := by
  have hiff := isForest_iff hS ha
  obtain ⟨d, hd⟩ := Heap.isVal_iff.mp hv
  cases hf : (G.data a).isForest with
  | false => rfl
  | true => rw [hiff, hd] at hf; simp at hf

theorem RInv.parent_eq (I : RInv m G K T) {a : Addr} (ha : G.Used a) (hx : ¬ Excl m.env K a) (e : Addr → Nat) (b : Int) :
    parent a (bumpE e (G.bor a b)) = .ok (G.up a) (bumpE e (G.bor a b)) := by
  have h := parent_ok (h := bumpE e (G.bor a b)) (K := K) ((I.inv.bor _ _).over _ _) ha I.kv
  refine h.trans ?_
  congr 1
  show (match G.up a with
    | none => none
    | some p => if (G.data p).isForest then none else some p) = G.up a
  cases hu : G.up a with
  | none => rfl
  | some p =>
    have hm := I.inv.mem_iff.mpr ⟨ha, hu⟩
    simp [not_forest I.st (I.inv.used_parent hm) (I.parentV hm hx)]

theorem si_isRoot (hm : SI m) {k : Var} {a : Addr} (hk : m.nodeOf k = some a) (hg : ¬ m.Guarded a true) :
    ∃ b, rstep m (.isRoot k) = .ok m (.bool b) ∧ (b = true ↔ ¬ m.HasParent a) := by
  obtain ⟨G, K, T, I, B⟩ := hm
  rw [I.nodeOf] at hk
  obtain ⟨ha, hx⟩ := (I.tgt k a hk).2
  refine ⟨(G.up a).isNone, ?_, ?_⟩
  · refine I.read_step B (f := fun a => do return (← parent a).isNone) hk hg fun e => ?_
    simp only [M.bind_apply, I.parent_eq ha hx, Res.bind_ok, M.pure_apply]
  · rw [I.hasParent ha hx]; simp

/-! ### Further handles -/

/-- A new handle to node `b`. -/
theorem RInv.adds (I : RInv m G K T) (B : GInv m) {b : Addr} {r : RcRef} (hu : G.Used b) (hx : ¬ Excl m.env K b) (hr : r.Is G b) :
    ∃ m', m.bindRef (bumpE (upd (extra G m.fresh T) b (extra G m.fresh T b + 1)) G) m.refs (.rc r) = .ok m' (.var m.fresh) ∧ Adds m m' ∧
      RInv m' G K (upd T m.fresh (some b)) := by
  have I' := I.bindRc hu hx hr
  rw [← I.extra_bind hu hx]
  refine ⟨_, rfl, ⟨⟨G, K, _, I', ?_⟩, rfl, fun j hj => upd_of_ne _ _ hj, ?_, ?_, ?_⟩, I'⟩
  · refine B.step (fun a w => ?_) fun a ha => .inl ⟨?_, ?_⟩
    · rw [gcount_bind fun k hk => (I.fr k hk).2]; simp [isGuard]
    · rw [I.heap]; exact ha
    · rw [I.heap]; rfl
  · intro j hj
    exact I.look_congr I' (upd_of_ne _ _ hj) fun _ _ _ _ => ⟨rfl, rfl⟩
  · rw [I.store_same I' rfl fun _ _ _ _ _ => ⟨rfl, rfl⟩]
  · rw [I.heap]; rfl

/-- Getting a handle to a node found under a shared borrow. -/
theorem RInv.handle_step (I : RInv m G K T) (B : GInv m) {k : Var} {a c : Addr} {f : Addr → M α (Option Addr)} (hk : T k = some a) (hg : ¬ m.Guarded a true)
    (hf : ∀ e, f a (bumpE e (G.bor a (G.borrow a + 1))) = .ok (some c) (bumpE e (G.bor a (G.borrow a + 1))))
    (hu : G.Used c) (hx : ¬ Excl m.env K c) (hv : G.IsVal c) :
    ∃ m', (m.onRc k fun r => m.run m.env m.refs (withShared r fun a => do
        match (← f a) with
        | some c => do return some (← nodeRc c)
        | none => return none) fun o h => m.retRc h m.refs o) = .ok m' (.var m.fresh) ∧ Adds m m' ∧ RInv m' G K (upd T m.fresh (some c)) := by
  obtain ⟨r, h1, h2⟩ := I.ref hk
  have ha := (I.tgt k a hk).2.1
  obtain ⟨q, hq, e1⟩ := nodeRc_ok (Z := fun _ => false) (e := extra G m.fresh T) (I.bor a (G.borrow a + 1)).st (a := c) hu hv rfl
  have hq' : q.Is G c := by cases q <;> exact hq
  obtain ⟨m', e2, A, I'⟩ := I.adds B hu hx hq'
  refine ⟨m', ?_, A, I'⟩
  have e3 : withShared r (fun a => do
        match (← f a) with
        | some c => do return some (← nodeRc c)
        | none => return none) m.heap = .ok (some q) (bumpE (upd (extra G m.fresh T) c (extra G m.fresh T c + 1)) G) := by
    rw [I.heap]
    refine (withShared_ok h2 ha (B.shared I ha hg) (b := some q) (H' := bumpE (upd (extra G m.fresh T) c (extra G m.fresh T c + 1)) (G.bor a (G.borrow a + 1))) ?_ ha.1).trans ?_
    · simp only [M.bind_apply, hf, Res.bind_ok, e1, M.pure_apply]
    · congr 1
      exact congrArg (bumpE _) bor_back
  simp only [RMachine.onRc, h1, RMachine.run, e3, RMachine.retRc]
  exact e2

theorem RInv.handle_none (I : RInv m G K T) (B : GInv m) {k : Var} {a : Addr} {f : Addr → M α (Option Addr)} (hk : T k = some a) (hg : ¬ m.Guarded a true)
    (hf : ∀ e, f a (bumpE e (G.bor a (G.borrow a + 1))) = .ok none (bumpE e (G.bor a (G.borrow a + 1)))) :
    (m.onRc k fun r => m.run m.env m.refs (withShared r fun a => do
        match (← f a) with
        | some c => do return some (← nodeRc c)
        | none => return none) fun o h => m.retRc h m.refs o) = .ok m .none := by
  obtain ⟨r, h1, h2⟩ := I.ref hk
  have ha := (I.tgt k a hk).2.1
  have e3 : withShared r (fun a => do
        match (← f a) with
        | some c => do return some (← nodeRc c)
        | none => return none) m.heap = .ok none m.heap := by
    rw [I.heap]
    refine withShared_read h2 ha (B.shared I ha hg) ?_
    simp only [M.bind_apply, hf, Res.bind_ok, M.pure_apply]
  simp only [RMachine.onRc, h1, RMachine.run, e3, RMachine.retRc]

theorem RInv.kidX (I : RInv m G K T) {a c : Addr} (hc : c ∈ K a) (hx : ¬ Excl m.env K a) : ¬ Excl m.env K c :=
  fun h => hx ((Excl.up I.inv I.hnd hc).mp h)

theorem DenL.mem {v : Addr → Option β} {K : Addr → List Addr} {cs : List Addr} {ts : List (RTree β)} (h : DenL v K cs ts) :
    ∀ (i : Nat) (t : RTree β), ts[i]? = some t → ∃ c, cs[i]? = some c ∧ Den v K c t := by
  induction cs generalizing ts with
  | nil => simp at h; subst h; simp
  | cons c cs ih =>
    cases ts with
    | nil => simp at h
    | cons t ts =>
      simp only [DenL_cons] at h
      intro i u hi
      cases i with
      | zero => simp at hi; subst hi; exact ⟨c, by simp, h.1⟩
      | succ i => simpa using ih h.2 i u (by simpa using hi)

theorem si_front (hm : SI m) {k : Var} {t c : RTree (Addr × α)} (hk : m.look k = some t) (hg : ¬ m.Guarded t.data.1 true) (hc : t.kids.head? = some c) :
    ∃ m', rstep m (.front k) = .ok m' (.var m.fresh) ∧ Adds m m' ∧ m'.look m.fresh = some c := by
  obtain ⟨G, K, T, I, B⟩ := hm
  obtain ⟨a, h1, h2⟩ := I.look_iff.mp hk
  obtain ⟨ha, hx⟩ := (I.tgt k a h1).2
  rw [h2.root] at hg
  cases t with
  | node x ts =>
    simp only [Den_node] at h2
    rw [RTree.kids_node, List.head?_eq_getElem?] at hc
    obtain ⟨b, g1, g2⟩ := h2.2.mem 0 c hc
    rw [← List.head?_eq_getElem?] at g1
    have hb : b ∈ K a := List.mem_of_mem_head? g1
    obtain ⟨m', e1, A, I'⟩ := I.handle_step B (f := front) h1 hg (c := b)
      (fun e => by rw [← g1, ← I.inv.l.head a ha]; exact front_ok (h := bumpE e (G.bor a (G.borrow a + 1))) ha.1) (I.inv.used_of_mem hb) (I.kidX hb hx) (I.kv a b hb)
    exact ⟨m', e1, A, I'.look_of (by simp) g2⟩

theorem si_front_none (hm : SI m) {k : Var} {t : RTree (Addr × α)} (hk : m.look k = some t) (hg : ¬ m.Guarded t.data.1 true) (hc : t.kids = []) :
    rstep m (.front k) = .ok m .none := by
  obtain ⟨G, K, T, I, B⟩ := hm
  obtain ⟨a, h1, h2⟩ := I.look_iff.mp hk
  obtain ⟨ha, hx⟩ := (I.tgt k a h1).2
  rw [h2.root] at hg
  cases t with
  | node x ts =>
    simp only [Den_node] at h2
    rw [RTree.kids_node] at hc
    have : K a = [] := by have := h2.2.len; rw [hc] at this; exact List.length_eq_zero_iff.mp this
    have g1 : G.head a = none := by rw [I.inv.l.head a ha, this]; rfl
    exact I.handle_none B (f := front) h1 hg fun e => by rw [← g1]; exact front_ok (h := bumpE e (G.bor a (G.borrow a + 1))) ha.1

theorem si_back (hm : SI m) {k : Var} {t c : RTree (Addr × α)} (hk : m.look k = some t) (hg : ¬ m.Guarded t.data.1 true) (hc : t.kids.getLast? = some c) :
    ∃ m', rstep m (.back k) = .ok m' (.var m.fresh) ∧ Adds m m' ∧ m'.look m.fresh = some c := by
  obtain ⟨G, K, T, I, B⟩ := hm
  obtain ⟨a, h1, h2⟩ := I.look_iff.mp hk
  obtain ⟨ha, hx⟩ := (I.tgt k a h1).2
  rw [h2.root] at hg
  cases t with
  | node x ts =>
    simp only [Den_node] at h2
    rw [RTree.kids_node, List.getLast?_eq_getElem?] at hc
    obtain ⟨b, g1, g2⟩ := h2.2.mem _ c hc
    rw [← h2.2.len, ← List.getLast?_eq_getElem?] at g1
    have hb : b ∈ K a := List.mem_of_mem_getLast? g1
    obtain ⟨m', e1, A, I'⟩ := I.handle_step B (f := back) h1 hg (c := b)
      (fun e => by rw [← g1, ← I.inv.l.tail a ha]; exact back_ok (h := bumpE e (G.bor a (G.borrow a + 1))) ha.1) (I.inv.used_of_mem hb) (I.kidX hb hx) (I.kv a b hb)
    exact ⟨m', e1, A, I'.look_of (by simp) g2⟩

theorem si_back_none (hm : SI m) {k : Var} {t : RTree (Addr × α)} (hk : m.look k = some t) (hg : ¬ m.Guarded t.data.1 true) (hc : t.kids = []) :
    rstep m (.back k) = .ok m .none := by
  obtain ⟨G, K, T, I, B⟩ := hm
  obtain ⟨a, h1, h2⟩ := I.look_iff.mp hk
  obtain ⟨ha, hx⟩ := (I.tgt k a h1).2
  rw [h2.root] at hg
  cases t with
  | node x ts =>
    simp only [Den_node] at h2
    rw [RTree.kids_node] at hc
    have : K a = [] := by have := h2.2.len; rw [hc] at this; exact List.length_eq_zero_iff.mp this
    have g1 : G.tail a = none := by rw [I.inv.l.tail a ha, this]; rfl
    exact I.handle_none B (f := back) h1 hg fun e => by rw [← g1]; exact back_ok (h := bumpE e (G.bor a (G.borrow a + 1))) ha.1

/-- `parent`: a handle to the node that has this one among its children. -/
theorem si_parent (hm : SI m) {k : Var} {a : Addr} (hk : m.nodeOf k = some a) (hg : ¬ m.Guarded a true) (hp : m.HasParent a) :
    ∃ m' t, rstep m (.parent k) = .ok m' (.var m.fresh) ∧ Adds m m' ∧ m'.look m.fresh = some t ∧ a ∈ t.kids.map fun c => c.data.1 := by
  obtain ⟨G, K, T, I, B⟩ := hm
  rw [I.nodeOf] at hk
  obtain ⟨ha, hx⟩ := (I.tgt k a hk).2
  rw [I.hasParent ha hx] at hp
  obtain ⟨u, hu⟩ := Option.ne_none_iff_exists'.mp hp
  have hm := I.inv.mem_iff.mpr ⟨ha, hu⟩
  obtain ⟨g1, g2⟩ := I.shared_parent hm hx
  obtain ⟨m', e1, A, I'⟩ := I.handle_step B (f := parent) hk hg (c := u) (fun e => by rw [← hu]; exact I.parent_eq ha hx e _) g1 g2 (I.parentV hm hx)
  obtain ⟨t, ht⟩ := I'.den (k := m.fresh) (a := u) (by simp)
  refine ⟨m', t, e1, A, I'.look_of (by simp) ht, ?_⟩
  cases t with
  | node x ts =>
    simp only [Den_node] at ht
    obtain ⟨i, hi⟩ := List.mem_iff_getElem?.mp hm
    have hlt : i < ts.length := by rw [← ht.2.len]; exact (List.getElem?_eq_some_iff.mp hi).1
    obtain ⟨c, h1, h2⟩ := ht.2.mem i ts[i] (by simp [hlt])
    rw [hi] at h1; cases h1
    exact List.mem_map.mpr ⟨ts[i], by simp, h2.root⟩

theorem si_parent_none (hm : SI m) {k : Var} {a : Addr} (hk : m.nodeOf k = some a) (hg : ¬ m.Guarded a true) (hp : ¬ m.HasParent a) :
    rstep m (.parent k) = .ok m .none := by
  obtain ⟨G, K, T, I, B⟩ := hm
  rw [I.nodeOf] at hk
  obtain ⟨ha, hx⟩ := (I.tgt k a hk).2
  rw [I.hasParent ha hx] at hp
  have hu : G.up a = none := by simpa using hp
  exact I.handle_none B (f := parent) hk hg fun e => by rw [← hu]; exact I.parent_eq ha hx e _

/-- `clone` of a handle to a node that is not part of a block. -/
theorem si_clone (hm : SI m) {k : Var} {t : RTree (Addr × α)} (hk : m.look k = some t) {a : Addr} (hs : m.refs k = some (.rc (.scattered a))) :
    ∃ m', rstep m (.clone k) = .ok m' (.var m.fresh) ∧ Adds m m' ∧ m'.look m.fresh = some t := by
  obtain ⟨G, K, T, I, B⟩ := hm
  obtain ⟨b, h1, h2⟩ := I.look_iff.mp hk
  obtain ⟨ha, hx⟩ := (I.tgt k b h1).2
  obtain ⟨r, h3, h4⟩ := I.ref h1
  rw [hs] at h3; cases h3
  obtain ⟨rfl, -⟩ := id h4
  obtain ⟨m', e1, A, I'⟩ := I.adds B ha hx h4
  refine ⟨m', ?_, A, I'.look_of (by simp) h2⟩
  have e2 : rcClone (.scattered a) m.heap = .ok (.scattered a) (bumpE (upd (extra G m.fresh T) a (extra G m.fresh T a + 1)) G) := by
    rw [I.heap]; exact rcClone_ok (Z := fun _ => false) (e := extra G m.fresh T) I.st ha rfl h4
  simp only [rstep, RMachine.onRc, hs, RMachine.run, e2]
  exact e1

end
end Trees
