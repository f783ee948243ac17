import Verif.Props.Visits
import Verif.Proof.VerdictShape
/-
C47: every sequence of visits.
-/
namespace Trees
set_option linter.unusedSimpArgs false
set_option linter.unusedVariables false
variable {α : Type}
open RTree

theorem Res.is_ok {σ β : Type} {r : Res σ β} (h : r.is .ok) : ∃ b s, r = .ok b s := by
  cases r with
  | ok b s => exact ⟨b, s, rfl⟩
  | err e s => cases e <;> simp [Res.is] at h

theorem Res.is_panic {σ β : Type} {r : Res σ β} (h : r.is .panic) : ∃ s, r = .err .panic s := by
  cases r with
  | ok b s => simp [Res.is] at h
  | err e s => cases e <;> simp [Res.is] at h; exact ⟨s, rfl⟩

theorem Res.is_ub {σ β : Type} {r : Res σ β} (h : r.is .ub) : ∃ s, r = .err .ub s := by
  cases r with
  | ok b s => simp [Res.is] at h
  | err e s => cases e <;> simp [Res.is] at h; exact ⟨s, rfl⟩

/-! ### How the call ends -/

/-- **C47** (part) `Tree::from(BfsTree{ iter, .. })` with any visits, in any state of the memory, accepts them exactly if they fit
into the block that the first visit asks for and each is announced by those before it. -/
theorem c47_accepts_partial (v : α × Size) (vs : List (α × Size)) (h : Heap α) :
    (∃ a h', treeOfVisits (v :: vs) none h = .ok a h') ↔ vs.length ≤ v.2.descendants ∧ Announced (v :: vs) := by
  have hv := treeOfVisits_verdict v vs h
  rw [announced_cons, ← (verdict_iff vs _ _).1]
  constructor
  · rintro ⟨a, h', e⟩
    rw [e] at hv; exact hv
  · intro e
    rw [e] at hv; exact Res.is_ok hv

/-- **C47** (part) It writes outside of the block exactly if there are more visits than the first one announces, and those that
fit are announced one after the other. -/
theorem c47_overruns_partial (v : α × Size) (vs : List (α × Size)) (h : Heap α) :
    (∃ h', treeOfVisits (v :: vs) none h = .err .ub h') ↔
      v.2.descendants < vs.length ∧ Announced ((v :: vs).take (v.2.descendants + 1)) := by
  have hv := treeOfVisits_verdict v vs h
  rw [List.take_succ_cons, announced_cons, ← (verdict_iff vs _ _).2]
  constructor
  · rintro ⟨h', e⟩
    rw [e] at hv; exact hv
  · intro e
    rw [e] at hv; exact Res.is_ub hv

/-- **C47** (part) In all other cases it panics: nothing else can happen. -/
theorem c47_trichotomy_partial (v : α × Size) (vs : List (α × Size)) (h : Heap α) :
    (∃ a h', treeOfVisits (v :: vs) none h = .ok a h') ∨ (∃ h', treeOfVisits (v :: vs) none h = .err .panic h') ∨
      ∃ h', treeOfVisits (v :: vs) none h = .err .ub h' := by
  have hv := treeOfVisits_verdict v vs h
  cases e : verdict v.2.descendants v.2.degree vs <;> rw [e] at hv
  · exact .inl (Res.is_ok hv)
  · exact .inr (.inl (Res.is_panic hv))
  · exact .inr (.inr (Res.is_ub hv))

/-- **C47** (part) `Forest::from(BfsForest{ iter, size })`, with any visits and any size. -/
theorem c47_forest_accepts_partial (sz : Size) (vs : List (α × Size)) (h : Heap α) :
    (∃ a h', forestOfVisits vs sz none h = .ok a h') ↔ vs.length ≤ sz.descendants ∧ AnnouncedF sz.degree vs := by
  have hv := forestOfVisits_verdict sz vs h
  rw [← (verdict_iff vs _ _).1]
  constructor
  · rintro ⟨a, h', e⟩
    rw [e] at hv; exact hv
  · intro e
    rw [e] at hv; exact Res.is_ok hv

theorem c47_forest_overruns_partial (sz : Size) (vs : List (α × Size)) (h : Heap α) :
    (∃ h', forestOfVisits vs sz none h = .err .ub h') ↔ sz.descendants < vs.length ∧ AnnouncedF sz.degree (vs.take sz.descendants) := by
  have hv := forestOfVisits_verdict sz vs h
  rw [← (verdict_iff vs _ _).2]
  constructor
  · rintro ⟨h', e⟩
    rw [e] at hv; exact hv
  · intro e
    rw [e] at hv; exact Res.is_ub hv

theorem c47_forest_trichotomy_partial (sz : Size) (vs : List (α × Size)) (h : Heap α) :
    (∃ a h', forestOfVisits vs sz none h = .ok a h') ∨ (∃ h', forestOfVisits vs sz none h = .err .panic h') ∨
      ∃ h', forestOfVisits vs sz none h = .err .ub h' := by
  have hv := forestOfVisits_verdict sz vs h
  cases e : verdict sz.descendants sz.degree vs <;> rw [e] at hv
  · exact .inl (Res.is_ok hv)
  · exact .inr (.inl (Res.is_panic hv))
  · exact .inr (.inr (Res.is_ub hv))

/-! ### What has been built -/

/-- **C47** (part) The tree that is built from visits that are accepted, with what its nodes report about their size. -/
theorem c47_builds_partial {v : α × Size} {vs : List (α × Size)} {h h' : Heap α} {a : Addr} (e : treeOfVisits (v :: vs) none h = .ok a h') :
    ∃ t, readSized (vs.length + 1) a h' = .ok t h' ∧ Told 1 (v :: vs) [t] := by
  obtain ⟨d, sz⟩ := v
  obtain ⟨F, e1, B, U, -, hsz, hdt⟩ := makeRoot_ok (h := bumped h (sz.descendants + 1)) (v := h.nextVec) (base := h.nextAddr) (n := sz.descendants + 1) (Nat.succ_pos _) (dat := .piled d h.nextVec) (sz := sz) (.inr ⟨d, rfl⟩)
  simp only [treeOfVisits, treeFromBfs, M.bind_apply, listNext, M.pure_apply, Res.bind_ok, unwrap, newVec_join, makePiledNode, e1] at e
  rcases fillLoop_verdict (hs := bumped h (sz.descendants + 1)) vs B U hsz with ⟨F', K', e2, B', U', ⟨par, r, S'⟩, hz', hd', -, e3⟩ | ⟨h', e2, e3⟩ | ⟨h', e2, e3⟩
  · have e4 := vecNode_join (P := blkP h.nextAddr (sz.descendants + 1)) (h := bumped h (sz.descendants + 1)) (blkQ_self (v := h.nextVec)) B'.vec (i := 0) (Nat.succ_pos _)
    have hl : F'.live h.nextAddr = true := (B'.live _).mpr ⟨Nat.le_refl _, by aomega⟩
    have hp : blkP h.nextAddr (sz.descendants + 1) h.nextAddr = true := blkP_iff.mpr ⟨Nat.le_refl _, by aomega⟩
    simp only [e2, Res.bind_ok, e4, Nat.add_zero, treeFromNode, M.bind_apply, setUp_join hp hl, M.pure_apply, dropVisits] at e
    obtain ⟨ea, eh⟩ := Res.ok.inj e
    have hlen : vs.length + 1 ≤ sz.descendants + 1 := by
      have := ((verdict_iff vs _ _).1.mp e3).1; aomega
    subst ea
    subst eh
    obtain ⟨t, h1, h2, h3⟩ := read_tree (v := (d, sz)) (shape_join (hs := bumped h (sz.descendants + 1)) B' U' S' hlen (upd F'.up h.nextAddr none)) (by
      simp [Heap.sized, Heap.val, join, hp, hd', hdt, hz', Data.val?]) (fun i hi => sized_join S' hlen _ hi)
    refine ⟨t, h1, h2, by simp, ?_⟩
    intro i s his
    rw [h3 i s his, List.length_cons]
    congr 1; aomega
  · simp only [e2, Res.bind, reduceCtorEq] at e
  · simp only [e2, Res.bind, reduceCtorEq] at e

/-- **C47** (part) The forest that is built; it reports the size that it was given. -/
theorem c47_forest_builds_partial {sz : Size} {vs : List (α × Size)} {h h' : Heap α} {a : Addr} (e : forestOfVisits vs sz none h = .ok a h') :
    degree a h' = .ok sz.degree h' ∧ nodeCount a h' = .ok sz.descendants h' ∧
    ∃ ts, readSizedForest (vs.length + 1) a h' = .ok ts h' ∧ Told sz.degree vs ts := by
  obtain ⟨F, e1, B, U, -, hsz, hdt⟩ := makeRoot_ok (h := bumped h (sz.descendants + 1)) (v := h.nextVec) (base := h.nextAddr) (n := sz.descendants + 1) (Nat.succ_pos _) (dat := (.piledNone h.nextVec : Data α)) (sz := sz) (.inl rfl)
  simp only [forestOfVisits, forestFromBfs, M.bind_apply, listNext, M.pure_apply, Res.bind_ok, unwrap, newVec_join, makePiledNode, e1] at e
  rcases fillLoop_verdict (hs := bumped h (sz.descendants + 1)) vs B U hsz with ⟨F', K', e2, B', U', ⟨par, r, S'⟩, hz', hd', -, e3⟩ | ⟨h', e2, e3⟩ | ⟨h', e2, e3⟩
  · have e4 := vecNode_join (P := blkP h.nextAddr (sz.descendants + 1)) (h := bumped h (sz.descendants + 1)) (blkQ_self (v := h.nextVec)) B'.vec (i := 0) (Nat.succ_pos _)
    have hl : F'.live h.nextAddr = true := (B'.live _).mpr ⟨Nat.le_refl _, by aomega⟩
    have hp : blkP h.nextAddr (sz.descendants + 1) h.nextAddr = true := blkP_iff.mpr ⟨Nat.le_refl _, by aomega⟩
    simp only [e2, Res.bind_ok, e4, Nat.add_zero, M.pure_apply, dropVisits] at e
    obtain ⟨ea, eh⟩ := Res.ok.inj e
    have hlen : vs.length + 1 ≤ sz.descendants + 1 := by
      have := ((verdict_iff vs _ _).1.mp e3).1; aomega
    subst ea
    subst eh
    have hl' : (join (blkP h.nextAddr (sz.descendants + 1)) (blkQ h.nextVec) (bumped h (sz.descendants + 1)) F').live h.nextAddr = true := by simp [join, hp, hl]
    refine ⟨?_, ?_, ?_⟩
    · simp [degree, hl']
      simp [join, hp, hz']
    · have hf : ((join (blkP h.nextAddr (sz.descendants + 1)) (blkQ h.nextVec) (bumped h (sz.descendants + 1)) F').data h.nextAddr).isForest = true := by
        simp [join, hp, hd', hdt, Data.isForest]
      have hs : (join (blkP h.nextAddr (sz.descendants + 1)) (blkQ h.nextVec) (bumped h (sz.descendants + 1)) F').size h.nextAddr = sz := by
        simp [join, hp, hz']
      simp [nodeCount, hl', hf, hs]
    · obtain ⟨ts, h1, h2, h3, h4⟩ := read_forest (sz := sz) (shape_join (hs := bumped h (sz.descendants + 1)) B' U' S' hlen F'.up) (by
        simp [join, hp, hz']) (fun i hi => sized_join S' hlen _ hi)
      exact ⟨ts, h1, h2, h3, h4⟩
  · simp only [e2, Res.bind, reduceCtorEq] at e
  · simp only [e2, Res.bind, reduceCtorEq] at e

/-! ### When the sizes are true -/

theorem qbfs_inj : ∀ (n : Nat) (ts us : List (RTree α)), countL ts ≤ n → ts.length = us.length →
    (qbfs ts).map (fun t => (t.data, t.kids.length)) = (qbfs us).map (fun t => (t.data, t.kids.length)) → ts = us := by
  intro n
  induction n with
  | zero =>
    intro ts us h hl _
    have := countL_eq_zero (Nat.le_zero.mp h); subst this
    cases us with
    | nil => rfl
    | cons u us => simp at hl
  | succ n ih =>
    intro ts us h hl e
    cases ts with
    | nil => cases us with
      | nil => rfl
      | cons u us => simp at hl
    | cons t ts => cases us with
      | nil => simp at hl
      | cons u us =>
        have h2 : countL (ts ++ t.kids) + 1 = countL (t :: ts) := by simp [count_eq t]; omega
        rw [qbfs_cons, qbfs_cons, List.map_cons, List.map_cons] at e
        obtain ⟨e1, e2⟩ := List.cons.inj e
        obtain ⟨e3, e4⟩ := Prod.mk.inj e1
        have hl' : ts.length = us.length := by simpa using hl
        have := ih (ts ++ t.kids) (us ++ u.kids) (by omega) (by simp [hl', e4]) e2
        obtain ⟨g1, g2⟩ := List.append_inj this hl'
        cases t; cases u
        simp only [data, kids] at e3 g2
        rw [e3, g1, g2]

/-- The visits determine what is built from them. -/
theorem told_unique {n : Nat} {vs : List (α × Size)} {ts us : List (RTree (α × Size))} (h1 : Told n vs ts) (h2 : Told n vs us) : ts = us := by
  refine qbfs_inj _ ts us (Nat.le_refl _) (h1.2.1.trans h2.2.1.symm) ?_
  have e1 := h1.1
  have e2 := h2.1
  rw [levelOrder_eq] at e1 e2
  have hlen : (qbfs ts).length = (qbfs us).length := by
    have a1 := congrArg List.length e1
    have a2 := congrArg List.length e2
    simp only [List.length_map] at a1 a2
    rw [a1, a2]
  apply List.ext_getElem (by simpa using hlen)
  intro i g1 g2
  simp only [List.length_map] at g1 g2
  have k1 := h1.2.2 i (qbfs ts)[i] (by rw [levelOrder_eq]; exact List.getElem?_eq_getElem g1)
  have k2 := h2.2.2 i (qbfs us)[i] (by rw [levelOrder_eq]; exact List.getElem?_eq_getElem g2)
  have k3 : (qbfs ts)[i].data = (qbfs us)[i].data := by
    have a1 : ((qbfs ts).map data)[i]? = ((qbfs us).map data)[i]? := by rw [e1, e2]
    simpa [g1, g2] using a1
  rw [List.getElem_map, List.getElem_map, k1, k2, k3]

theorem visitList_qbfs (us : List (RTree α)) : visitList us = (qbfs us).map fun t => (t.data, ⟨t.kids.length, t.count - 1⟩) := by
  rw [visitList, levelOrder_eq]; rfl

theorem mapL_len {β : Type} (f : α → β) : ∀ ts : List (RTree α), (mapL f ts).length = ts.length
  | [] => rfl
  | t :: ts => by simp [mapL, mapL_len f ts]

mutual
/-- The tree that reports the truth. -/
def truth : RTree α → RTree (α × Size)
  | .node d ks => .node (d, ⟨ks.length, countL ks⟩) (truthL ks)
def truthL : List (RTree α) → List (RTree (α × Size))
  | [] => []
  | t :: ts => truth t :: truthL ts
end

theorem truthL_length : ∀ ts : List (RTree α), (truthL ts).length = ts.length
  | [] => rfl
  | t :: ts => by simp [truthL, truthL_length ts]

theorem truthL_append : ∀ ts us : List (RTree α), truthL (ts ++ us) = truthL ts ++ truthL us
  | [], _ => rfl
  | t :: ts, us => by simp [truthL, truthL_append ts us]

theorem truth_data (t : RTree α) : (truth t).data = (t.data, ⟨t.kids.length, t.count - 1⟩) := by
  cases t; simp [truth, RTree.data, RTree.kids]

theorem truth_kids (t : RTree α) : (truth t).kids = truthL t.kids := by
  cases t; simp [truth, RTree.kids]

mutual
theorem truth_count : ∀ t : RTree α, (truth t).count = t.count
  | .node d ks => by simp [truth, truthL_count ks]
theorem truthL_count : ∀ ts : List (RTree α), countL (truthL ts) = countL ts
  | [] => rfl
  | t :: ts => by simp [truthL, truth_count t, truthL_count ts]
end

theorem qbfs_truth : ∀ (n : Nat) (ts : List (RTree α)), countL ts ≤ n → qbfs (truthL ts) = (qbfs ts).map truth := by
  intro n
  induction n with
  | zero => intro ts h; have := countL_eq_zero (Nat.le_zero.mp h); subst this; simp [truthL]
  | succ n ih =>
    intro ts h
    cases ts with
    | nil => simp [truthL]
    | cons t ts =>
      have h2 : countL (ts ++ t.kids) + 1 = countL (t :: ts) := by simp [count_eq t]; omega
      rw [truthL, qbfs_cons, qbfs_cons, List.map_cons, ← ih _ (by omega), truth_kids, truthL_append]

theorem kids_sum (ts : List (RTree α)) : ts.length + ((qbfs ts).map fun t => t.kids.length).sum = (qbfs ts).length := by
  have h := congrArg List.length (qbfs_flat _ ts (Nat.le_refl _))
  rw [List.length_append, List.length_flatMap] at h
  exact h.symm

theorem told_truth (us : List (RTree α)) : Told us.length (visitList us) (truthL us) := by
  have hq := qbfs_truth _ us (Nat.le_refl _)
  have hv := visitList_qbfs us
  have hk := kids_sum us
  refine ⟨?_, ?_, ?_⟩
  · rw [levelOrder_eq, hq, hv, List.map_map]
    apply List.map_congr_left
    intro t _; exact truth_data t
  · rw [truthL_length, hv, List.length_map, Nat.min_eq_left]; omega
  · intro i s his
    rw [levelOrder_eq, hq, List.getElem?_map] at his
    obtain ⟨t, ht, rfl⟩ := Option.map_eq_some_iff.mp his
    obtain ⟨hi, hti⟩ := List.getElem?_eq_some_iff.mp ht
    have h1 : (((visitList us).take i).map fun v => v.2.degree).sum = (((qbfs us).take i).map fun t => t.kids.length).sum := by
      rw [hv, ← List.map_take, List.map_map]; rfl
    have h2 : (((qbfs us).take (i + 1)).map fun t => t.kids.length).sum = (((qbfs us).take i).map fun t => t.kids.length).sum + t.kids.length := by
      rw [List.take_add_one, ht, List.map_append, List.sum_append]; simp
    have h3 : (((qbfs us).take (i + 1)).map fun t => t.kids.length).sum ≤ ((qbfs us).map fun t => t.kids.length).sum := by
      conv_rhs => rw [← List.take_append_drop (i + 1) (qbfs us), List.map_append, List.sum_append]
      omega
    rw [truth_kids, truthL_length, truth_data, h1, hv, List.length_map, Nat.min_eq_left]
    dsimp only
    omega

theorem truthful_truth (us : List (RTree α)) : Truthful (truthL us) := by
  intro s hs
  rw [levelOrder_eq, qbfs_truth _ us (Nat.le_refl _)] at hs
  obtain ⟨t, _, rfl⟩ := List.mem_map.mp hs
  rw [truth_data, truth_kids, truthL_length, truth_count]

/-- **C47** (part) What has been built reports the truth about its sizes exactly if the visits were the visits of some trees. -/
theorem c47_truthful_partial {n : Nat} {vs : List (α × Size)} {ts : List (RTree (α × Size))} (h : Told n vs ts) :
    (n = ts.length ∧ Truthful ts) ↔ ∃ us : List (RTree α), n = us.length ∧ vs = visitList us := by
  constructor
  · rintro ⟨hn, ht⟩
    refine ⟨mapL Prod.fst ts, by rw [hn, mapL_len], ?_⟩
    rw [visitList_qbfs, qbfs_mapL, List.map_map, ← h.1, levelOrder_eq]
    apply List.map_congr_left
    intro s hs
    have := ht s (by rw [levelOrder_eq]; exact hs)
    simp only [Function.comp, data_map, kids_map, mapL_len, count_map]
    rw [← this]
  · rintro ⟨us, hn, rfl⟩
    have := told_unique h (hn ▸ told_truth us)
    subst this
    exact ⟨by rw [hn, truthL_length], truthful_truth us⟩

/-- How these calls end, and what is read back. -/
def visitsDemo (vs : List (Nat × Size)) : String × Option (RTree (Nat × Size)) :=
  match treeOfVisits vs none Heap.empty with
  | .ok a h => ("ok", match readSized vs.length a h with | .ok t _ => some t | .err _ _ => none)
  | .err .panic _ => ("panic", none)
  | .err .ub _ => ("ub", none)
  | .err .fuel _ => ("fuel", none)
  | .err .alloc _ => ("alloc", none)

/-- All three cases occur: accepted although nothing of it is true (a child is announced and missing, the counts are made up); refused;
writing outside of the block. -/
example : visitsDemo [(0, ⟨2, 9⟩), (1, ⟨3, 0⟩), (2, ⟨1, 4⟩), (3, ⟨0, 7⟩)] =
    ("ok", some (.node (0, ⟨2, 9⟩) [.node (1, ⟨3, 0⟩) [.node (3, ⟨0, 7⟩) []], .node (2, ⟨1, 4⟩) []])) := by rfl
example : visitsDemo [(0, ⟨1, 9⟩), (1, ⟨0, 0⟩), (2, ⟨0, 0⟩)] = ("panic", none) := by rfl
example : visitsDemo [(0, ⟨2, 1⟩), (1, ⟨0, 0⟩), (2, ⟨0, 0⟩)] = ("ub", none) := by rfl
example : Announced [((0 : Nat), ⟨2, 9⟩), (1, ⟨3, 0⟩), (2, ⟨1, 4⟩), (3, ⟨0, 7⟩)] := by
  intro i h0 hi
  obtain rfl | rfl | rfl : i = 1 ∨ i = 2 ∨ i = 3 := by simp at hi; omega
  all_goals decide
example : ¬ Announced [((0 : Nat), ⟨1, 9⟩), (1, ⟨0, 0⟩), (2, ⟨0, 0⟩)] := fun h => absurd (h 2 (by decide) (by decide)) (by decide)
example : Told 1 (visitList [.node (0 : Nat) [.node 1 [.node 5 []], .node 2 []]]) [.node (0, ⟨2, 3⟩) [.node (1, ⟨1, 1⟩) [.node (5, ⟨0, 0⟩) []], .node (2, ⟨0, 0⟩) []]] :=
  told_truth [.node 0 [.node 1 [.node 5 []], .node 2 []]]

/-- How the destructor of what has been built ends, and the items it has destroyed. -/
def visitsDrop (vs : List (Nat × Size)) : Option (String × List Nat) :=
  match treeOfVisits vs none Heap.empty with
  | .ok a h => some ((dropRoot a h).how, match dropRoot a h with | .ok _ h' => h'.log | .err _ h' => h'.log)
  | .err _ _ => none

/-- It is false as well that a value that has been accepted can be dropped: the destructor panics here, and destroys nothing, because
the root has one child and announces two. -/
theorem c47_refuted_drop : ¬ ∀ (vs : List (Nat × Size)) (r : String × List Nat), visitsDrop vs = some r → r.1 = "ok" := by
  intro h
  have := h [(0, ⟨2, 1⟩), (1, ⟨0, 0⟩)] ("panic", []) (by decide +kernel)
  simp at this

end Trees
