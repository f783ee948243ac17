import Verif.Model.IterKept
import Verif.Props.Stack
import Verif.Props.Observe
import Verif.Props.IterMut
import Verif.Proof.Walk
/-
C73: mutable child iterators kept while the program goes on.
All theorems range over every reachable state, every node in it and all programs run between the calls of `next`.
-/
namespace Trees
set_option linter.unusedSimpArgs false
set_option linter.unusedVariables false
variable {α : Type}

/-- The node after `c` in the state: the next sibling where `c` is a child, none where `c` is the root of a tree. -/
def Machine.After (m : Machine α) (c : Addr) (d : Option Addr) : Prop :=
  (∃ y q n, m.nodeAt y (q ++ [n]) = some c ∧ m.nodeAt y (q ++ [n + 1]) = d) ∨ (∃ y, m.nodeAt y [] = some c ∧ d = none)

/-- What a kept iterator yields: `c` is the node to yield, `l` the number of nodes left.  Each `next` yields the node that was the one after the
last yielded node when that one was yielded — not now; that node has to be somewhere in the program's values.  When the count is used up,
or when the last yielded node was the last child when it was yielded, it yields none. -/
inductive KeptIter : Machine α → Option Addr → Nat → List (List (Op α)) → List (Option Addr) → Machine α → Prop
  | stop (m c l) : KeptIter m c l [] [] m
  | over {m m' c ops rest rs} : KeptIter (exec step m ops).1 c 0 rest rs m' → KeptIter m c 0 (ops :: rest) (none :: rs) m'
  | lost {m m' l ops rest rs} : KeptIter (exec step m ops).1 none l rest rs m' → KeptIter m none (l + 1) (ops :: rest) (none :: rs) m'
  | yields {m m' c d l ops rest rs} : (exec step m ops).1.After c d → KeptIter (exec step m ops).1 d l rest rs m' →
    KeptIter m (some c) (l + 1) (ops :: rest) (some c :: rs) m'

/-- The nodes `cs` are neighbours, in this order: children of one node. -/
def Machine.Row (m : Machine α) (cs : List Addr) : Prop :=
  cs = [] ∨ ∃ y q n, ∀ i, i < cs.length → m.nodeAt y (q ++ [n + i]) = cs[i]?

/-- At every call of `next` the nodes not yet yielded are still neighbours in the old order. -/
def Machine.Undisturbed : Machine α → List Addr → List (List (Op α)) → Prop
  | _, _, [] => True
  | m, cs, ops :: rest => (exec step m ops).1.Row cs ∧ (exec step m ops).1.Undisturbed cs.tail rest

namespace Proof

theorem nodeAt_resolve {m : Machine α} {K : Addr → List Addr} (M : MInv m K) {x : Var} {hd : Handle} (he : m.env x = some hd) (p : Path) :
    m.nodeAt x p = resolve K hd.addr p := by
  simp [Machine.nodeAt, he, locate_ok M.inv (M.hnd x hd he).used]

theorem resolve_last {K : Addr → List Addr} {a : Addr} {q : Path} {n : Nat} : resolve K a (q ++ [n]) = (resolve K a q).bind fun b => (K b)[n]? := by
  rw [resolve_append]
  cases resolve K a q with
  | none => rfl
  | some b => simp only [Option.bind_some, resolve]; cases (K b)[n]? <;> rfl

theorem after_next {m : Machine α} (hr : Reachable m) {c : Addr} {d : Option Addr} (h : m.After c d) :
    m.heap.live c = true ∧ m.heap.next c = d := by
  obtain ⟨K, M⟩ := reachable_minv hr
  rcases h with ⟨y, q, n, h1, h2⟩ | ⟨y, h1, rfl⟩
  · cases he : m.env y with
    | none => simp [Machine.nodeAt, he] at h1
    | some hd =>
      rw [nodeAt_resolve M he, resolve_last] at h1 h2
      cases hq : resolve K hd.addr q with
      | none => rw [hq] at h1; cases h1
      | some b =>
        rw [hq] at h1 h2
        simp only [Option.bind_some] at h1 h2
        have hb := M.inv.reach_used (M.hnd y hd he).used (resolve_reach hq)
        have hc := M.inv.used_of_mem (List.mem_of_getElem? h1)
        exact ⟨hc.1, by rw [Walk.links_next (M.inv.l.links b hb) n c h1, h2]⟩
  · cases he : m.env y with
    | none => simp [Machine.nodeAt, he] at h1
    | some hd =>
      rw [nodeAt_resolve M he] at h1
      simp only [resolve, Option.some.injEq] at h1
      subst h1
      have ho := M.hnd y hd he
      exact ⟨ho.used.1, (M.inv.l.root _ ho.used (by simp) ho.root).2⟩

/-- The kept iterator does what the specification says. -/
theorem kept_run {m m' : Machine α} {c : Option Addr} {l : Nat} {rounds : List (List (Op α))} {rs : List (Option Addr)}
    (H : KeptIter m c l rounds rs m') : Reachable m → Machine.keptNexts ⟨c, l⟩ m rounds = some (rs, m') := by
  induction H with
  | stop m c l => intro _; rfl
  | @over m m' c ops rest rs _ ih =>
    intro hr
    have := ih (Proof.exec_reachable ops hr)
    simp only [Machine.keptNexts] at this ⊢
    rw [RawIter.next_zero]
    simp only [this, Option.map_some]
  | @lost m m' l ops rest rs _ ih =>
    intro hr
    have := ih (Proof.exec_reachable ops hr)
    have e : RawIter.next ⟨none, l + 1⟩ (exec step m ops).1.heap = .ok (none, ⟨none, l⟩) (exec step m ops).1.heap := by
      simp [RawIter.next, uncountedNext]
    simp only [Machine.keptNexts] at this ⊢
    rw [e]
    simp only [this, Option.map_some]
  | @yields m m' c d l ops rest rs ha _ ih =>
    intro hr
    have hr' := Proof.exec_reachable ops hr
    have := ih hr'
    obtain ⟨h1, h2⟩ := after_next hr' ha
    simp only [Machine.keptNexts] at this ⊢
    rw [RawIter.next_succ h1, h2]
    simp only [this, Option.map_some]

/-- Calls of `next` change nothing. -/
theorem kept_frame {rounds : List (List (Op α))} : ∀ {m m' : Machine α} {c : Option Addr} {l : Nat} {rs : List (Option Addr)},
    KeptIter m c l rounds rs m' → m' = rounds.foldl (fun m ops => (exec step m ops).1) m := by
  induction rounds with
  | nil => intro m m' c l rs H; cases H; rfl
  | cons ops rest ih => intro m m' c l rs H; cases H <;> exact ih ‹_›

/-- An undisturbed row is what the specification yields. -/
theorem kept_of_row {rounds : List (List (Op α))} : ∀ {m : Machine α} {ks : List Addr} {c : Option Addr}, (ks ≠ [] → c = ks.head?) →
    m.Undisturbed ks rounds → KeptIter m c ks.length rounds ((List.range rounds.length).map fun k => ks[k]?)
      (rounds.foldl (fun m ops => (exec step m ops).1) m) := by
  induction rounds with
  | nil => intro m ks c _ _; exact .stop ..
  | cons ops rest ih =>
    intro m ks c hc H
    have e : (List.range (ops :: rest).length).map (fun k => ks[k]?) = ks[0]? :: (List.range rest.length).map fun k => ks.tail[k]? := by
      rw [List.length_cons, List.range_succ_eq_map, List.map_cons, List.map_map]
      congr 1
      apply List.map_congr_left
      intro k _
      simp
    rw [e]
    cases ks with
    | nil => exact .over (ih (by simp) H.2)
    | cons c ks =>
      rw [hc (by simp)]
      rcases H.1 with h | ⟨y, q, n, h⟩
      · cases h
      · have h0 := h 0 (by simp)
        refine .yields (.inl ⟨y, q, n, h0, rfl⟩) (ih ?_ H.2)
        intro hk
        cases ks with
        | nil => cases hk rfl
        | cons d ks => exact h 1 (by simp)

/-- The iterator of a node: its first child and their number. -/
theorem iter_kept {h : Heap α} {K : Addr → List Addr} (hI : Inv h K) {a : Addr} (ha : h.Used a) :
    iter a h = .ok ⟨(K a).head?, (K a).length⟩ h := by
  have hh := hI.l.head a ha
  have hs := hI.s a ha
  cases hK : K a with
  | nil => rw [hK] at hh; simp [iter, ha.1, hh]
  | cons c cs => rw [hK] at hh hs; simp [iter, ha.1, hh, hs]

end Proof

/-- **C73** A mutable child iterator that is kept while the program goes on, changing anything: each `next` yields the node that followed the
last yielded node when that one was yielded, as long as the number of children there were at the beginning is not used up (`KeptIter`), and
changes nothing.  Nodes inserted, detached, moved or added afterwards make no difference. -/
theorem c73_kept {m : Machine α} (hr : Reachable m) {x : Var} {p : Path} {v : Val α} {us : List (RTree α)} (hx : m.view x = some v)
    (hv : v.isIter = false) (hp : kidsAt v.kids p = some us) :
    ∃ (n : Addr) (it : RawIter) (ks : List Addr), m.nodeAt x p = some n ∧ iter n m.heap = .ok it m.heap ∧ ks.length = us.length ∧ (∀ i, ks[i]? = m.nodeAt x (p ++ [i])) ∧
      ∀ rounds rs m', KeptIter m ks.head? ks.length rounds rs m' →
        Machine.keptNexts it m rounds = some (rs, m') ∧ m' = rounds.foldl (fun m ops => (exec step m ops).1) m := by
  obtain ⟨K, M⟩ := Proof.reachable_minv hr
  obtain ⟨hd, n, h1, a⟩ := Proof.nodeAt_at M hx hp
  exact ⟨n, _, K n, h1, Proof.iter_kept M.inv (a.used M), a.kden.length, fun i => (Proof.nodeAt_child M a i).symm,
    fun rounds rs m' H => ⟨Proof.kept_run H hr, Proof.kept_frame H⟩⟩

/-- **C73** If the children not yet yielded are still neighbours in the old order at every call of `next` — whatever became of their parent and of
the nodes around them, and of those already yielded — the iterator yields exactly the children there were when it was made, once each and in
order, and then none. -/
theorem c73_row {m : Machine α} (hr : Reachable m) {x : Var} {p : Path} {v : Val α} {us : List (RTree α)} (hx : m.view x = some v)
    (hv : v.isIter = false) (hp : kidsAt v.kids p = some us) :
    ∃ (n : Addr) (it : RawIter) (ks : List Addr), m.nodeAt x p = some n ∧ iter n m.heap = .ok it m.heap ∧ ks.length = us.length ∧ (∀ i, ks[i]? = m.nodeAt x (p ++ [i])) ∧
      ∀ rounds, m.Undisturbed ks rounds → Machine.keptNexts it m rounds =
        some ((List.range rounds.length).map (fun k => ks[k]?), rounds.foldl (fun m ops => (exec step m ops).1) m) := by
  obtain ⟨n, it, ks, h1, h2, h3, h4, h5⟩ := c73_kept hr hx hv hp
  exact ⟨n, it, ks, h1, h2, h3, h4, fun rounds H => (h5 rounds _ _ (Proof.kept_of_row (fun _ => rfl) H)).1⟩

/-! ### Examples -/

/-- `0(1(5) 2)`: before the first `next` the program does nothing; `1` is yielded.  Then the program detaches it and pushes the tree in variable 9 to
the back of the children.  `2` is yielded, and then none, though `2` has a next sibling. -/
example : ∃ n it c d, demo9.nodeAt 0 [] = some n ∧ iter n demo9.heap = .ok it demo9.heap ∧ demo9.nodeAt 0 [0] = some c ∧
    demo9.nodeAt 0 [1] = some d ∧
    Machine.keptNexts it demo9 [[], [.detach 0 (.child [] 0), .pushBack 0 [] 9], []] = some ([some c, some d, none],
      (exec step demo9 [.detach 0 (.child [] 0), .pushBack 0 [] 9]).1) := by
  obtain ⟨n, it, ks, h1, h2, h3, h4, h5⟩ := c73_row demo9_reachable (x := 0) (p := [])
    (v := .tree (.node 0 [.node 1 [.node 5 []], .node 2 []])) (us := [.node 1 [.node 5 []], .node 2 []]) (demo9_view 0) rfl rfl
  match ks, h3 with
  | [c, d], _ =>
    refine ⟨n, it, c, d, h1, h2, (h4 0).symm, (h4 1).symm, ?_⟩
    refine (h5 [[], [.detach 0 (.child [] 0), .pushBack 0 [] 9], []] ⟨.inr ⟨0, [], 0, ?_⟩, .inr ⟨0, [], 0, ?_⟩, .inl rfl, trivial⟩).trans rfl
    · intro i _
      rw [h4 i]
      simp [exec]
    · intro i hi
      have : i = 0 := by simpa using hi
      subst this
      rw [show [c, d].tail[0]? = demo9.nodeAt 0 [1] from h4 1]
      decide +kernel

/-- The same tree: after `1` was yielded, the program detaches `2`, the next node.  It is yielded all the same, and then none. -/
example : ∃ n it c d, demo9.nodeAt 0 [] = some n ∧ iter n demo9.heap = .ok it demo9.heap ∧ demo9.nodeAt 0 [0] = some c ∧
    demo9.nodeAt 0 [1] = some d ∧ (exec step demo9 [.detach 0 (.child [] 1)]).1.nodeAt demo9.fresh [] = some d ∧
    Machine.keptNexts it demo9 [[], [.detach 0 (.child [] 1)], []] = some ([some c, some d, none], (exec step demo9 [.detach 0 (.child [] 1)]).1) := by
  obtain ⟨n, it, ks, h1, h2, h3, h4, h5⟩ := c73_kept demo9_reachable (x := 0) (p := [])
    (v := .tree (.node 0 [.node 1 [.node 5 []], .node 2 []])) (us := [.node 1 [.node 5 []], .node 2 []]) (demo9_view 0) rfl rfl
  match ks, h3 with
  | [c, d], _ =>
    have hd : (exec step demo9 [.detach 0 (.child [] 1)]).1.nodeAt demo9.fresh [] = some d := by
      rw [show some d = demo9.nodeAt 0 [1] from h4 1]
      decide +kernel
    refine ⟨n, it, c, d, h1, h2, (h4 0).symm, (h4 1).symm, hd, ?_⟩
    exact (h5 [[], [.detach 0 (.child [] 1)], []] _ _
      (.yields (d := some d) (.inl ⟨0, [], 0, (h4 0).symm, (h4 1).symm⟩)
        (.yields (d := none) (.inr ⟨demo9.fresh, hd, rfl⟩) (.over (.stop ..))))).1

end Trees
