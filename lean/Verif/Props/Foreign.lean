import Verif.Proof.Foreign
/-
C62: trees of a client's own type: `Split`, `Splitted`, `BfsTree::from`, `BfsForest::from`, `Bfs`.
-/
namespace Trees
set_option linter.unusedSimpArgs false
variable {α ι κ δ σ : Type}
open RTree

/-- The items in level order, each as the closure of `map` leaves it, with the client's claims about the sizes. -/
def claims (f : Nat → δ → α) (ts : List (RTree (δ × Size))) : List (α × Size) :=
  ((levelOrder ts).map data).mapIdx fun i v => (f i v.1, v.2)

theorem claims_mapped (f : Nat → δ → α) (ts : List (RTree (δ × Size))) : claims f ts = Foreign.mapped f 0 ((levelOrder ts).map data) := by
  simp [claims, Foreign.mapped]

theorem claims_visits (f : Nat → δ → α) {ts : List (RTree (δ × Size))} (h : Truthful ts) :
    claims f ts = (visits (mapL Prod.fst ts)).mapIdx fun i v => (f i v.1, v.2) := by
  have e : (visits (mapL Prod.fst ts)) = (levelOrder ts).map data := by
    rw [visits_mapL, visits, List.map_map, levelOrder_eq]
    apply List.map_congr_left
    intro s hs
    have := h s (by rw [levelOrder_eq]; exact hs)
    simp only [Function.comp, szOf]
    rw [show countL s.kids = s.count - 1 by cases s; simp [RTree.kids], ← this]
  rw [claims, e]

theorem claims_tree (f : Nat → δ → α) {t : RTree (δ × Size)} (h : Truthful [t]) : claims f [t] = visitList [updLevel f (t.map Prod.fst)] := by
  rw [claims_visits f h, visitList_eq, visits_updLevel]; rfl

theorem claims_forest (f : Nat → δ → α) {ts : List (RTree (δ × Size))} (h : Truthful ts) : claims f ts = visitList (updLevelL f (mapL Prod.fst ts)) := by
  rw [claims_visits f h, visitList_eq, visits_updLevelL]

/-! ### The visits -/

/-- **C62** `BfsTree::from(it, _).iter` (and `BfsForest::from`): the first `k` calls of `next()` yield the client's trees in
breadth-first order, each with the client's claims about its size, and `None` after the last one. -/
theorem c62_visits {F : Foreign ι κ δ} {it : ι} {ts : List (RTree (δ × Size))} (hl : Lists F it ts) (size : Size) (k : Nat) (h : Heap α) :
    ∃ s, driveVisits (splittedNext F.src) k (BfsOf.from it size).iter h = .ok ((List.range k).map (fun i => (levelOrder ts)[i]?.map data), s) h := by
  obtain ⟨s', hg, hd⟩ := Foreign.lists_gives hl
  obtain ⟨s, e⟩ := Foreign.drive_gives h k hg hd
  exact ⟨s, by simpa [List.getElem?_map, BfsOf.from] using e⟩

/-! ### Any implementation -/

/-- **C62** `Tree::from(BfsTree::from(it, _).map(f))` with any implementation of `Split`, whatever it claims about sizes, does what
it does with the list of the visits (so C47 says how it ends); the size given to `BfsTree::from` does not matter. -/
theorem c62_tree_any {F : Foreign ι κ δ} {it : ι} {ts : List (RTree (δ × Size))} (hl : Lists F it ts) (f : Nat → δ → α) (size : Size) (h : Heap α) :
    treeOfForeign F f (.from it size) h = treeOfVisits (claims f ts) none h := by
  obtain ⟨s', hg, hd⟩ := Foreign.lists_gives hl
  rw [claims_mapped]
  exact Foreign.treeOf_same f hg (.inl (by rw [hd])) size h

/-- **C62** The same for `Forest::from(BfsForest::from(it, size).map(f))`. -/
theorem c62_forest_any {F : Foreign ι κ δ} {it : ι} {ts : List (RTree (δ × Size))} (hl : Lists F it ts) (f : Nat → δ → α) (size : Size) (h : Heap α) :
    forestOfForeign F f (.from it size) h = forestOfVisits (claims f ts) size none h := by
  obtain ⟨s', hg, hd⟩ := Foreign.lists_gives hl
  rw [claims_mapped]
  exact Foreign.forestOf_same f hg (.inl (by rw [hd])) h

/-- If the first `k` calls all yield something. -/
theorem drive_somes {F : Foreign ι κ δ} (h : Heap α) : ∀ (k : Nat) {s s' : List ι} {os : List (Option (δ × Size))},
    driveVisits (splittedNext F.src) k s h = .ok (os, s') h → none ∉ os → ∃ xs s'', F.Gives s xs s'' ∧ xs.length = k ∧ os = xs.map some := by
  intro k
  induction k with
  | zero =>
    intro s s' os e _
    obtain ⟨e, -⟩ := Res.ok.inj (show Res.ok ([], s) h = .ok (os, s') h from e)
    cases e
    exact ⟨[], s, .nil, rfl, rfl⟩
  | succ k ih =>
    intro s s' os e hn
    rw [driveVisits, M.bind_apply, Foreign.next_eq, Res.bind_ok] at e
    rcases hs : F.step s with ⟨o, s1⟩
    rw [hs] at e
    have e : Res.bind (driveVisits (splittedNext F.src) k s1 h) _ = _ := e
    cases hd : driveVisits (splittedNext F.src) k s1 h with
    | ok os' s2 =>
      rw [hd] at e
      have e : Res.ok (o :: os'.1, os'.2) s2 = .ok (os, s') h := e
      obtain ⟨e1, rfl⟩ := Res.ok.inj e
      cases e1
      simp only [List.mem_cons, not_or] at hn
      obtain ⟨xs, s'', hg, hl, hm⟩ := ih hd hn.2
      cases o with
      | none => exact absurd rfl hn.1
      | some v => exact ⟨v :: xs, s'', .cons hs hg, by simp [hl], by simp [hm]⟩
    | err _ _ => rw [hd] at e; cases e

/-- **C62** A client's trees without end: `Tree::from` does not run for ever and does not return: it panics or (C47) writes outside of
its block. -/
theorem c62_endless {F : Foreign ι κ δ} (b : BfsOf (List ι))
    (he : ∀ k, ∃ os s, driveVisits (splittedNext F.src) k b.iter (Heap.empty : Heap α) = .ok (os, s) Heap.empty ∧ none ∉ os)
    (f : Nat → δ → α) (h : Heap α) :
    (∃ h', treeOfForeign F f b h = .err .panic h') ∨ ∃ h', treeOfForeign F f b h = .err .ub h' := by
  obtain ⟨os, s, e, hn⟩ := he 1
  obtain ⟨xs, s1, hg, hl, -⟩ := drive_somes _ 1 e hn
  match xs, hl with
  | [v], _ =>
    obtain ⟨os, s, e, hn⟩ := he (v.2.descendants + 2)
    obtain ⟨xs, s2, hg2, hl, -⟩ := drive_somes _ _ e hn
    have hv : ∃ ys, xs = v :: ys := by
      cases hg with
      | cons q1 _ =>
        cases hg2 with
        | nil => simp at hl
        | cons q2 _ => rw [q1] at q2; cases q2; exact ⟨_, rfl⟩
    obtain ⟨ys, rfl⟩ := hv
    have hlen : v.2.descendants < ys.length := by simp only [List.length_cons] at hl; omega
    have hs := Foreign.treeOf_same f hg2 (.inr ⟨v, ys, rfl, hlen⟩) b.size h
    have hb : (⟨b.iter, b.size⟩ : BfsOf (List ι)) = b := rfl
    rw [hb, Foreign.mapped_cons] at hs
    rw [hs]
    rcases c47_trichotomy_partial (f 0 v.1, v.2) (Foreign.mapped f 1 ys) h with h1 | h1 | h1
    · have := ((c47_accepts_partial _ _ h).mp h1).1
      simp only [Foreign.mapped, List.length_mapIdx] at this
      omega
    · exact .inl h1
    · exact .inr h1

/-- **C62** The same for forests. -/
theorem c62_endless_forest {F : Foreign ι κ δ} (b : BfsOf (List ι))
    (he : ∀ k, ∃ os s, driveVisits (splittedNext F.src) k b.iter (Heap.empty : Heap α) = .ok (os, s) Heap.empty ∧ none ∉ os)
    (f : Nat → δ → α) (h : Heap α) :
    (∃ h', forestOfForeign F f b h = .err .panic h') ∨ ∃ h', forestOfForeign F f b h = .err .ub h' := by
  obtain ⟨os, s, e, hn⟩ := he (b.size.descendants + 1)
  obtain ⟨xs, s1, hg, hl, -⟩ := drive_somes _ _ e hn
  have hs := Foreign.forestOf_same f (sz := b.size) hg (.inr (by omega)) h
  have hb : (⟨b.iter, b.size⟩ : BfsOf (List ι)) = b := rfl
  rw [hb] at hs
  rw [hs]
  rcases c47_forest_trichotomy_partial b.size (Foreign.mapped f 0 xs) h with h1 | h1 | h1
  · have := ((c47_forest_accepts_partial _ _ h).mp h1).1
    simp only [Foreign.mapped, List.length_mapIdx] at this
    omega
  · exact .inl h1
  · exact .inr h1

/-! ### Honest implementations -/

section
variable {m : Machine α} (hr : CReachable m)
include hr

/-- **C62** `Tree::from(BfsTree::from(it, _).map(f))`, for an iterator that yields one tree, all sizes reported truthfully: a
new variable holds the client's tree, with `f` applied to the items in breadth-first order; nothing else changes. -/
theorem c62_tree {F : Foreign ι κ δ} {it : ι} {t : RTree (δ × Size)} (hl : Lists F it [t]) (ht : Truthful [t]) (f : Nat → δ → α) (size : Size) :
    ∃ m', m.fromForeign F f (.from it size) = .ok m' (.var m.fresh) ∧ CReachable m' ∧ m'.view m.fresh = some (.tree (updLevel f (t.map Prod.fst))) ∧
      (∀ z, z ≠ m.fresh → m'.view z = m.view z) ∧ m'.store.dropped = m.store.dropped := by
  have e : m.fromForeign F f (.from it size) = cstep m (.ofVisits (updLevel f (t.map Prod.fst)) none) := by
    simp only [Machine.fromForeign, cstep, Machine.run, c62_tree_any hl f size, claims_tree f ht]
  rw [e]
  exact c47_tree_partial hr _

/-- **C62** `Forest::from(BfsForest::from(it, size).map(f))`, if `size` is the number of the trees and of all their nodes. -/
theorem c62_forest {F : Foreign ι κ δ} {it : ι} {ts : List (RTree (δ × Size))} (hl : Lists F it ts) (ht : Truthful ts) (f : Nat → δ → α) :
    ∃ m', m.fromForeignForest F f (.from it ⟨ts.length, countL ts⟩) = .ok m' (.var m.fresh) ∧ CReachable m' ∧
      m'.view m.fresh = some (.forest (updLevelL f (mapL Prod.fst ts))) ∧
      (∀ z, z ≠ m.fresh → m'.view z = m.view z) ∧ m'.store.dropped = m.store.dropped := by
  have e : m.fromForeignForest F f (.from it ⟨ts.length, countL ts⟩) = cstep m (.ofVisitsForest (updLevelL f (mapL Prod.fst ts)) none) := by
    simp only [Machine.fromForeignForest, cstep, Machine.run, c62_forest_any hl f, claims_forest f ht, updLevelL_length, mapL_len, countL_updLevelL, countL_mapL]
  rw [e]
  exact c47_forest_partial hr _

omit hr in
/-- **C62** An iterator that yields nothing: `Tree::from` panics and changes nothing. -/
theorem c62_none {F : Foreign ι κ δ} {it : ι} (hl : Lists F it []) (f : Nat → δ → α) (size : Size) :
    ∃ m', m.fromForeign F f (.from it size) = .panic m' ∧ m'.view = m.view ∧ m'.heap = m.heap := by
  have e : treeOfForeign F f (.from it size) m.heap = .err .panic m.heap := by
    rw [c62_tree_any hl f size]; exact c47_empty_partial none m.heap
  refine ⟨m, ?_, rfl, rfl⟩
  simp only [Machine.fromForeign, Machine.run, e]

end

/-! ### `Bfs` -/

/-- **C62** What `wrap` and the selectors of `Bfs` give back: the iterator, and the size, of the value that was wrapped; the selector
for the other kind gives `None`. -/
theorem c62_select (b : BfsOf σ) :
    b.wrapTree.iter = b.iter ∧ b.wrapForest.iter = b.iter ∧ b.wrapTree.iterAndSize = (b.iter, b.size) ∧ b.wrapForest.iterAndSize = (b.iter, b.size) ∧
    b.wrapTree.treeIter = some b.iter ∧ b.wrapTree.forestIter = none ∧ b.wrapForest.forestIter = some b.iter ∧ b.wrapForest.treeIter = none :=
  ⟨rfl, rfl, rfl, rfl, rfl, rfl, rfl, rfl⟩

/-! ### Not vacuous: binary trees -/

/-- A client's type. -/
inductive Bin where
  | leaf
  | fork (l : Bin) (n : Nat) (r : Bin)

/-- The nodes of it. -/
def Bin.size : Bin → Nat
  | .leaf => 0
  | .fork l _ r => l.size + 1 + r.size

/-- The client's iterators: lists of forks, given by left subtree, number, and right subtree. -/
def Bin.iter : Bin → List (Bin × Nat × Bin)
  | .leaf => []
  | .fork l n r => [(l, n, r)]

/-- The client's implementation of `Split`. -/
def binSplit : Foreign (List (Bin × Nat × Bin)) (Bin × Nat × Bin) Nat where
  next
    | [] => (none, [])
    | k :: ks => (some k, ks)
  len := List.length
  split k := (k.2.1, k.1.iter ++ k.2.2.iter, k.1.size + k.2.2.size)

/-- What it yields. -/
def Bin.shape : Bin → List (RTree (Nat × Size))
  | .leaf => []
  | .fork l n r => [.node (n, ⟨(l.iter ++ r.iter).length, l.size + r.size⟩) (l.shape ++ r.shape)]

theorem bin_append {x y : List (Bin × Nat × Bin)} {ts us} (hx : Lists binSplit x ts) (hy : Lists binSplit y us) : Lists binSplit (x ++ y) (ts ++ us) := by
  induction hx with
  | @nil it it' e =>
    cases it with
    | nil => exact hy
    | cons _ _ => simp [binSplit] at e
  | @cons it it' k ks ts e h1 h2 _ ih =>
    cases it with
    | nil => simp [binSplit] at e
    | cons k' it =>
      simp only [binSplit, Prod.mk.injEq, Option.some.injEq] at e
      obtain ⟨rfl, rfl⟩ := e
      exact .cons (it' := it ++ y) (k := k') rfl h1 ih

/-- Every binary tree is one of the client's trees, in the sense of the specification. -/
theorem bin_lists : ∀ b : Bin, Lists binSplit b.iter b.shape
  | .leaf => .nil rfl
  | .fork l n r => .cons (it' := []) (k := (l, n, r)) rfl (bin_append (bin_lists l) (bin_lists r)) (.nil rfl)

theorem bin_length : ∀ b : Bin, b.iter.length = b.shape.length
  | .leaf => rfl
  | .fork _ _ _ => rfl

theorem bin_count : ∀ b : Bin, countL b.shape = b.size
  | .leaf => rfl
  | .fork l n r => by
    simp only [Bin.shape, countL, RTree.count, countL_append, bin_count l, bin_count r, Bin.size]; omega

/-- And reports the truth. -/
theorem bin_truthful (b : Bin) : Truthful b.shape := by
  have key : ∀ (n : Nat) (bs : List Bin), countL (bs.flatMap Bin.shape) ≤ n → ∀ s ∈ qbfs (bs.flatMap Bin.shape), s.data.2 = ⟨s.kids.length, s.count - 1⟩ := by
    intro n
    induction n with
    | zero =>
      intro bs hb s hs
      rw [countL_eq_zero (Nat.le_zero.mp hb)] at hs
      simp at hs
    | succ n ih =>
      intro bs
      induction bs with
      | nil => intro _ s hs; simp at hs
      | cons b bs ihb =>
        intro hb s hs
        cases b with
        | leaf => exact ihb hb s hs
        | fork l d r =>
          have e : ((Bin.fork l d r :: bs).flatMap Bin.shape) = .node (d, ⟨(l.iter ++ r.iter).length, l.size + r.size⟩) (l.shape ++ r.shape) :: bs.flatMap Bin.shape := rfl
          rw [e] at hb hs
          rw [qbfs_cons] at hs
          rcases List.mem_cons.mp hs with rfl | hs
          · simp [RTree.data, RTree.kids, bin_length, bin_count]
          · have e2 : bs.flatMap Bin.shape ++ (RTree.node (d, (⟨(l.iter ++ r.iter).length, l.size + r.size⟩ : Size)) (l.shape ++ r.shape)).kids =
                (bs ++ [l, r]).flatMap Bin.shape := by simp [RTree.kids]
            rw [e2] at hs
            refine ih _ ?_ s hs
            rw [← e2]
            simp [RTree.kids] at hb ⊢
            omega
  intro s hs
  rw [levelOrder_eq] at hs
  exact key _ [b] (Nat.le_refl _) s (by simpa using hs)

/-- A binary tree of five nodes. -/
def bin5 : Bin := .fork (.fork .leaf 2 (.fork .leaf 4 .leaf)) 1 (.fork (.fork .leaf 5 .leaf) 3 .leaf)

example : bin5.shape = [.node (1, ⟨2, 4⟩) [.node (2, ⟨1, 1⟩) [.node (4, ⟨0, 0⟩) []], .node (3, ⟨1, 1⟩) [.node (5, ⟨0, 0⟩) []]]] := by rfl

/-- The hypotheses of `c62_tree` and `c62_forest` are met. -/
example : Lists binSplit bin5.iter bin5.shape ∧ Truthful bin5.shape := ⟨bin_lists _, bin_truthful _⟩

example : (match (Machine.empty : Machine Nat).fromForeign binSplit (fun i d => 10 * i + d) (.from bin5.iter ⟨0, 0⟩) with
    | .ok m _ => some m.heap.nextAddr
    | _ => none) = some 5 := by decide +kernel

/-- The client's trees without end: every iterator yields a leaf for ever. -/
def endless : Foreign Unit Unit Nat := ⟨fun _ => (some (), ()), fun _ => 7, fun _ => (0, (), 9)⟩

/-- The hypothesis of `c62_endless` is met. -/
theorem endless_visits : ∀ (k : Nat) (s : List Unit), s ≠ [] → ∃ os s', driveVisits (splittedNext endless.src) k s (Heap.empty : Heap Nat) = .ok (os, s') Heap.empty ∧ none ∉ os := by
  intro k
  induction k with
  | zero => intro s _; exact ⟨[], s, rfl, by simp⟩
  | succ k ih =>
    intro s hs
    cases s with
    | nil => exact absurd rfl hs
    | cons u s =>
      obtain ⟨os, s', e, hn⟩ := ih (u :: s ++ [()]) (by simp)
      refine ⟨some (0, ⟨7, 9⟩) :: os, s', ?_, by simp [hn]⟩
      rw [driveVisits, M.bind_apply, Foreign.next_eq, Res.bind_ok]
      have e1 : endless.step (u :: s) = (some (0, ⟨7, 9⟩), u :: s ++ [()]) := rfl
      simp only [e1, M.bind_apply, e, Res.bind_ok, M.pure_apply]

/-- **C47**, again: an honest implementation of `Split`, but two trees where one is expected; `BfsTree::from` cannot refuse them, and
the crate writes outside of the block. -/
theorem c47_refuted_roots : ¬ ∀ (it : List (Bin × Nat × Bin)) (ts : List (RTree (Nat × Size))), Lists binSplit it ts → Truthful ts →
    (∃ a h, treeOfForeign binSplit (fun _ d => d) (.from it ⟨ts.length, countL ts⟩) Heap.empty = .ok a h) ∨
      ∃ h, treeOfForeign binSplit (fun _ d => d) (.from it ⟨ts.length, countL ts⟩) Heap.empty = .err .panic h := by
  intro hall
  have hl : Lists binSplit [(Bin.leaf, 1, Bin.leaf), (Bin.leaf, 2, Bin.leaf)] [.node (1, ⟨0, 0⟩) [], .node (2, ⟨0, 0⟩) []] :=
    .cons (it' := [(Bin.leaf, 2, Bin.leaf)]) (k := (Bin.leaf, 1, Bin.leaf)) rfl (.nil rfl) (.cons (it' := []) (k := (Bin.leaf, 2, Bin.leaf)) rfl (.nil rfl) (.nil rfl))
  have ht : Truthful [RTree.node (1, (⟨0, 0⟩ : Size)) [], .node (2, ⟨0, 0⟩) []] := by
    intro s hs
    rw [levelOrder_eq] at hs
    simp [qbfs_cons, RTree.kids] at hs
    rcases hs with rfl | rfl <;> rfl
  have hu : (treeOfVisits [(1, ⟨0, 0⟩), (2, ⟨0, 0⟩)] none (Heap.empty : Heap Nat)).how = "ub" := by decide +kernel
  have := hall _ _ hl ht
  rw [c62_tree_any hl, show claims (fun _ d => d) [RTree.node (1, (⟨0, 0⟩ : Size)) [], .node (2, ⟨0, 0⟩) []] = [(1, ⟨0, 0⟩), (2, ⟨0, 0⟩)] from rfl] at this
  rcases this with ⟨a, g, e⟩ | ⟨g, e⟩ <;> rw [e] at hu <;> simp [Res.how] at hu

end Trees
