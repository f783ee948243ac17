import Verif.Proof.Live
/-
C69: what a program sees through references and iterators that it holds while it goes on calling.
-/
namespace Trees
set_option linter.unusedSimpArgs false
set_option linter.unusedVariables false
variable {α : Type}
open RTree

/-- States of programs that hold borrows. -/
inductive LReachable : LMachine α → Prop
  | init : LReachable .empty
  | step {L op} : LReachable L → LReachable (lstep L op).1

namespace Proof

theorem lok_empty : LOK (LMachine.empty : LMachine α) .empty := by
  refine ⟨.init, ?_, rfl, fun i => .none, fun i _ => rfl, fun i j x l l' h => by cases h⟩
  rfl

theorem lreach_ok {L : LMachine α} (hr : LReachable L) : ∃ S, LOK L S := by
  induction hr with
  | init => exact ⟨_, lok_empty⟩
  | @step L op _ ih =>
    obtain ⟨S, H⟩ := ih
    exact ⟨_, (lsim H op).1⟩

theorem lsim_run : ∀ (ops : List (LOp α)) {L : LMachine α} {S : LStore α}, LOK L S →
    LOK (runCalls lstep L ops).1 (runCalls lspec S ops).1 ∧ (runCalls lstep L ops).2 = (runCalls lspec S ops).2
  | [], L, S, H => ⟨H, rfl⟩
  | op :: ops, L, S, H => by
    obtain ⟨h1, h2⟩ := lsim H op
    obtain ⟨h3, h4⟩ := lsim_run ops h1
    simp only [runCalls]
    exact ⟨h3, by rw [h2, h4]⟩

end Proof

/-- **C69** (whole programs).  Every program that holds node references, iterators over children and breadth-first iterators
while it makes other calls — also calls that read the borrowed values, and any calls on other values — sees what the
specification says, in which a shared borrow refers to the value as it was when the borrow was made. -/
theorem c69_program (ops : List (LOp α)) :
    (runCalls lstep .empty ops).2 = (runCalls lspec .empty ops).2 ∧
    (runCalls lstep .empty ops).1.m.view = (runCalls lspec .empty ops).1.store.vars ∧
    (runCalls lstep .empty ops).1.m.heap.log = (runCalls lspec .empty ops).1.store.dropped := by
  obtain ⟨H, h⟩ := Proof.lsim_run ops Proof.lok_empty
  refine ⟨h, ?_, ?_⟩
  · rw [H.store]; rfl
  · rw [H.store]; rfl

/-- **C69** (no dangling reference): nothing that such a program does reads or writes memory that is not a node, and nothing
done through a borrow panics. -/
theorem c69_safe {L : LMachine α} (hr : LReachable L) (op : LOp α) :
    (lstep L op).2 ≠ .bad ∧ ((lstep L op).2 = .panic → ∃ c, op = .call c) := by
  obtain ⟨S, H⟩ := Proof.lreach_ok hr
  rw [(lsim H op).2]
  have hat : ∀ i (k : Var → Val α → Loc → RTree α → LStore α × LOut α), (∀ x v l t, (k x v l t).2 ≠ .bad ∧ (k x v l t).2 ≠ .panic) →
      (S.atRef i k).2 ≠ .bad ∧ (S.atRef i k).2 ≠ .panic := by
    intro i k hk
    have hi := H.ref i
    simp only [LStore.atRef]
    revert hi
    generalize L.refs i = b
    generalize S.refs i = s
    intro hi
    cases hi with
    | none => simp
    | kids => simp
    | bfs => simp
    | item => simp
    | bfsMut => simp
    | node h1 h2 => simp only [Val.at?_map, h2, Option.map_some]; exact hk _ _ _ _
  have hnode : ∀ x l (k : Val α → RTree α → LStore α × LOut α), (∀ v t, (k v t).2 ≠ .bad ∧ (k v t).2 ≠ .panic) →
      (S.atNode x l k).2 ≠ .bad ∧ (S.atNode x l k).2 ≠ .panic := by
    intro x l k hk
    simp only [LStore.atNode]
    repeat' split
    all_goals first
      | exact hk _ _
      | simp
  have hkids : ∀ x p (k : Val α → List (RTree α) → LStore α × LOut α), (∀ v t, (k v t).2 ≠ .bad ∧ (k v t).2 ≠ .panic) →
      (S.atKids x p k).2 ≠ .bad ∧ (S.atKids x p k).2 ≠ .panic := by
    intro x p k hk
    simp only [LStore.atKids]
    repeat' split
    all_goals first
      | exact hk _ _
      | simp
  suffices h : (ldo S op).2 ≠ .bad ∧ ((∀ c, op ≠ .call c) → (ldo S op).2 ≠ .panic) by
    simp only [lspec]
    split
    · simp
    · refine ⟨h.1, fun hp => ?_⟩
      by_contra hc
      exact h.2 (fun c hcc => hc ⟨c, hcc⟩) hp
  cases op with
  | call c =>
    refine ⟨?_, fun h => absurd rfl (h c)⟩
    have hs := c10_step H.reach c
    simp only [ldo, LStore.doCall]
    rw [H.store, ← hs]
    have := c10_never_bad H.reach c
    cases h : step L.m c <;> simp [Outcome.map] <;> exact absurd h this
  | hold x l => exact ⟨(hnode x l _ fun v t => by simp [LStore.new]).1, fun _ => (hnode x l _ fun v t => by simp [LStore.new]).2⟩
  | iter x p => exact ⟨(hkids x p _ fun v t => by simp [LStore.new]).1, fun _ => (hkids x p _ fun v t => by simp [LStore.new]).2⟩
  | bfs x l => exact ⟨(hnode x l _ fun v t => by simp [LStore.new]).1, fun _ => (hnode x l _ fun v t => by simp [LStore.new]).2⟩
  | bfsChildren x p => exact ⟨(hkids x p _ fun v t => by simp [LStore.new]).1, fun _ => (hkids x p _ fun v t => by simp [LStore.new]).2⟩
  | bfsMut x l => exact ⟨(hnode x l _ fun v t => by simp [LStore.new]).1, fun _ => (hnode x l _ fun v t => by simp [LStore.new]).2⟩
  | bfsChildrenMut x p => exact ⟨(hkids x p _ fun v t => by simp [LStore.new]).1, fun _ => (hkids x p _ fun v t => by simp [LStore.new]).2⟩
  | get i =>
    have hi := H.ref i
    simp only [ldo, LStore.itemAt, H.var]
    revert hi
    generalize L.refs i = b
    generalize S.refs i = s
    intro hi
    cases hi with
    | item h1 h2 h3 =>
      rw [Val.at?_map, Option.map_eq_some_iff] at h3
      obtain ⟨u, hu, rfl⟩ := h3
      simp [h1, Val.at?_map, hu]
    | _ => simp
  | set i d =>
    obtain ⟨m, ⟨-, h2, -⟩, -, h4⟩ := lsim_setOp H i d
    rw [← h2]
    rcases h4 with h4 | h4 <;> rw [h4] <;> simp
  | look i => exact ⟨(hat i _ fun x v l t => by simp).1, fun _ => (hat i _ fun x v l t => by simp).2⟩
  | parentOf i =>
    have h := hat i (fun x v l _ => match v.above l with
      | some l' => S.new x (.node v l')
      | none => (S, .nothing)) fun x v l t => by split <;> simp [LStore.new]
    exact ⟨h.1, fun _ => h.2⟩
  | frontOf i =>
    have h := hat i (fun x v l _ => S.newAt x v (.child l.full 0)) fun x v l t => by
      simp only [LStore.newAt]; split <;> simp [LStore.new]
    exact ⟨h.1, fun _ => h.2⟩
  | backOf i =>
    have h := hat i (fun x v l t => S.newAt x v (.child l.full (t.kids.length - 1))) fun x v l t => by
      simp only [LStore.newAt]; split <;> simp [LStore.new]
    exact ⟨h.1, fun _ => h.2⟩
  | iterOf i => exact ⟨(hat i _ fun x v l t => by simp [LStore.new]).1, fun _ => (hat i _ fun x v l t => by simp [LStore.new]).2⟩
  | bfsOf i => exact ⟨(hat i _ fun x v l t => by simp [LStore.new]).1, fun _ => (hat i _ fun x v l t => by simp [LStore.new]).2⟩
  | bfsChildrenOf i => exact ⟨(hat i _ fun x v l t => by simp [LStore.new]).1, fun _ => (hat i _ fun x v l t => by simp [LStore.new]).2⟩
  | next i =>
    simp only [ldo]
    repeat' split
    all_goals simp [LStore.new]
  | len i =>
    simp only [ldo]
    repeat' split
    all_goals simp
  | release i =>
    simp only [ldo]
    repeat' split
    all_goals simp

/-- **C69** (borrowed values stay): while there is a borrow of `x`, no call moves a node of the value in `x`, nor adds or removes
one; if the borrow is shared, no call changes an item either. -/
theorem c69_still {L : LMachine α} (hr : LReachable L) {i : Nat} {x : Var} {l : Live} (h : L.refs i = some (x, l)) (op : LOp α) :
    ((lstep L op).1.m.lview x).map (Val.map Prod.fst) = (L.m.lview x).map (Val.map Prod.fst) ∧
    (l.excl = false → (lstep L op).1.m.lview x = L.m.lview x) := by
  obtain ⟨S, H⟩ := Proof.lreach_ok hr
  obtain ⟨v, hv⟩ := H.live_var h
  obtain ⟨K, M⟩ := Proof.reachable_minv H.reach
  have hf : x < L.m.fresh := by
    refine Nat.lt_of_not_le fun hf => ?_
    rw [Machine.lview, M.fr x hf] at hv; cases hv
  have same : ∀ m : Machine α, m.lview x = L.m.lview x →
      (m.lview x).map (Val.map Prod.fst) = (L.m.lview x).map (Val.map Prod.fst) ∧ (l.excl = false → m.lview x = L.m.lview x) := by
    intro m e; exact ⟨by rw [e], fun _ => e⟩
  simp only [lstep]
  cases hcl : clash Live.excl L.refs L.made op with
  | true => exact same _ rfl
  | false =>
    simp only [Bool.false_eq_true, if_false]
    by_cases hc : ∃ c, op = .call c
    · obtain ⟨op, rfl⟩ := hc
      simp only [clash, Bool.or_eq_false_iff] at hcl
      have hx : x ∉ op.writes := by
        intro hm
        have hb := hcl.1
        rw [List.any_eq_false] at hb
        exact H.unborrowed (by simpa using hb x hm) i l h
      simp only [lexec]
      cases hs : step L.m op with
      | ok m' o => exact same _ ((writes_frame H.reach hx hf).1 o hs)
      | panic m' => exact same _ ((writes_frame H.reach hx hf).2 hs)
      | rejected => exact same _ rfl
      | bad => exact same _ rfl
    · by_cases hc' : ∃ j d, op = .set j d
      · obtain ⟨j, d, rfl⟩ := hc'
        obtain ⟨m, ⟨-, -, hm⟩, hcase, -⟩ := lsim_setOp H j d
        rw [hm]
        rcases hcase with rfl | ⟨y, q, b, w, u, h1, h2, h3, h4, h5⟩
        · exact same _ rfl
        · by_cases hy : y = x
          · subst hy
            obtain ⟨v', g1, g2⟩ := set_shape H.reach h3 h4 h5
            refine ⟨by rw [g1, h3, Option.map_some, Option.map_some, g2], fun he => ?_⟩
            rw [H.excl i j _ _ _ h h1, h2] at he
            cases he
          · exact same _ ((writes_frame H.reach (op := .setData y q d) (by simpa [Op.writes] using Ne.symm hy) hf).1 _ h5)
      · rw [(lsim_look H op (fun c e => hc ⟨c, e⟩) (fun i d e => hc' ⟨i, d, e⟩) hcl).2.2]
        exact same _ rfl

/-- The results of the calls of `next()` on iterator number `i` in a program. -/
def nextsOf (i : Nat) : List (LOp α) → List (LOut α) → List (LOut α)
  | .next j :: ops, o :: os => if j = i then o :: nextsOf i ops os else nextsOf i ops os
  | _ :: ops, _ :: os => nextsOf i ops os
  | _, _ => []

namespace Proof

/-- Calls that do not concern borrow number `i` leave it as it is. -/
theorem keep_ref {S : LStore α} {i : Nat} (hi : i < S.made) {op : LOp α} (h1 : op ≠ .next i) (h2 : op ≠ .release i) :
    (lspec S op).1.refs i = S.refs i ∧ S.made ≤ (lspec S op).1.made := by
  have hne : i ≠ S.made := Nat.ne_of_lt hi
  simp only [lspec]
  split
  · simp
  cases op with
  | next j =>
    have hj : i ≠ j := fun e => h1 (by rw [e])
    simp only [ldo]
    repeat' split
    all_goals simp [LStore.new, LStore.put, hj, hne]
  | release j =>
    have hj : i ≠ j := fun e => h2 (by rw [e])
    simp only [ldo]
    repeat' split
    all_goals simp [LStore.put, hj]
  | _ =>
    simp only [ldo, LStore.atNode, LStore.atKids, LStore.atRef, LStore.newAt, LStore.doCall]
    repeat' split
    all_goals simp [LStore.new, hne]

theorem nexts_spec (i : Nat) : ∀ (ops : List (LOp α)) {S : LStore α} {x : Var} {vs : List (α × Nat × Nat)}, i < S.made →
    S.refs i = some (x, .bfs vs) → (.release i) ∉ ops →
    nextsOf i ops (runCalls lspec S ops).2 = (List.range (nextsOf i ops (runCalls lspec S ops).2).length).map fun j => .visit vs[j]? := by
  intro ops
  induction ops with
  | nil => intros; rfl
  | cons op ops ih =>
    intro S x vs hi hr hn
    simp only [List.mem_cons, not_or] at hn
    by_cases hop : op = .next i
    · subst hop
      have e : lspec S (.next i) = (S.put i (some (x, .bfs vs.tail)), .visit vs.head?) := by simp only [lspec, clash, ldo, hr]; rfl
      simp only [runCalls, e, nextsOf, if_true, List.length_cons]
      rw [List.range_succ_eq_map, List.map_cons, List.map_map, ← List.head?_eq_getElem?]
      congr 1
      have := ih (S := S.put i (some (x, .bfs vs.tail))) (x := x) (vs := vs.tail) hi (by simp [LStore.put]) hn.2
      simpa [Function.comp_def] using this
    · obtain ⟨h1, h2⟩ := keep_ref hi hop (Ne.symm hn.1)
      have e : nextsOf i (op :: ops) (runCalls lspec S (op :: ops)).2 = nextsOf i ops (runCalls lspec (lspec S op).1 ops).2 := by
        simp only [runCalls]
        cases op with
        | next j => simp only [nextsOf]; rw [if_neg (fun e => hop (by rw [e]))]
        | _ => rfl
      rw [e]
      exact ih (Nat.lt_of_lt_of_le hi h2) (h1.trans hr) hn.2

theorem keep_run (i : Nat) : ∀ (ops : List (LOp α)) {S : LStore α}, i < S.made → (∀ op ∈ ops, op ≠ .next i ∧ op ≠ .release i) →
    (runCalls lspec S ops).1.refs i = S.refs i := by
  intro ops
  induction ops with
  | nil => intros; rfl
  | cons op ops ih =>
    intro S hi hn
    obtain ⟨h1, h2⟩ := keep_ref hi (hn op (by simp)).1 (hn op (by simp)).2
    simp only [runCalls]
    rw [ih (Nat.lt_of_lt_of_le hi h2) (fun op h => hn op (by simp [h])), h1]

end Proof

/-- **C69** (breadth-first iterators).  Whatever a program does between the calls of `next()`, the iterator visits the nodes of
the tree as it was when the iterator was made, level by level. -/
theorem c69_bfs {L L' : LMachine α} (hr : LReachable L) {x : Var} {l : Loc} {i : Nat} (h : lstep L (.bfs x l) = (L', .ref i)) :
    ∃ v t, L.m.view x = some v ∧ v.at? l = some t ∧ ∀ ops, .release i ∉ ops →
      nextsOf i ops (runCalls lstep L' ops).2 =
        (List.range (nextsOf i ops (runCalls lstep L' ops).2).length).map fun j => .visit ((levelOrder [t]).map visit)[j]? := by
  obtain ⟨S, H⟩ := Proof.lreach_ok hr
  obtain ⟨H', e⟩ := lsim H (.bfs x l)
  rw [h] at H' e
  have key : ∃ v t, S.store.vars x = some v ∧ v.at? l = some t ∧ lspec S (.bfs x l) = S.new x (.bfs (bfsVisits [t])) := by
    replace e := e.symm
    have hcl : clash View.excl S.refs S.made (.bfs x l : LOp α) = false := by
      simp only [lspec] at e
      split at e
      · cases e
      · rename_i h; simpa using h
    simp only [lspec, hcl, Bool.false_eq_true, if_false, ldo, LStore.atNode] at e ⊢
    cases hx : S.store.vars x with
    | none => rw [hx] at e; simp at e
    | some v =>
      rw [hx] at e
      simp only [] at e ⊢
      split at e
      · simp at e
      · rename_i hit
        rw [if_neg hit]
        cases l with
        | root =>
          cases v with
          | tree t => exact ⟨_, t, rfl, rfl, rfl⟩
          | forest ts => simp at e
          | iter ts => simp at e
        | child q j =>
          simp only [] at e ⊢
          cases hat : v.at? (.child q j) with
          | none => rw [hat] at e; simp at e
          | some t => exact ⟨v, t, rfl, hat, rfl⟩
  obtain ⟨v, t, hx, hl, he⟩ := key
  rw [he] at e H'
  refine ⟨v, t, by rw [← hx, H.store]; rfl, hl, fun ops hn => ?_⟩
  obtain ⟨-, e2⟩ := Proof.lsim_run ops H'
  simp only [LStore.new, LOut.ref.injEq] at e
  subst e
  rw [e2]
  exact Proof.nexts_spec S.made ops (x := x) (vs := bfsVisits [t]) (by simp [LStore.new]) (by simp [LStore.new]) hn

/-- **C69** (node references).  Whatever a program does while it holds a reference to a node, it finds the node as it was. -/
theorem c69_node {L L' : LMachine α} (hr : LReachable L) {x : Var} {l : Loc} {i : Nat} (h : lstep L (.hold x l) = (L', .ref i)) :
    ∃ v t, L.m.view x = some v ∧ v.at? l = some t ∧ ∀ ops, .release i ∉ ops →
      (lstep (runCalls lstep L' ops).1 (.look i)).2 = .node t.data t.kids.length t.count := by
  obtain ⟨S, H⟩ := Proof.lreach_ok hr
  obtain ⟨H', e⟩ := lsim H (.hold x l)
  rw [h] at H' e
  have key : ∃ v t, S.store.vars x = some v ∧ v.at? l = some t ∧ lspec S (.hold x l) = S.new x (.node v l) := by
    replace e := e.symm
    have hcl : clash View.excl S.refs S.made (.hold x l : LOp α) = false := by
      simp only [lspec] at e
      split at e
      · cases e
      · rename_i h; simpa using h
    simp only [lspec, hcl, Bool.false_eq_true, if_false, ldo, LStore.atNode] at e ⊢
    cases hx : S.store.vars x with
    | none => rw [hx] at e; simp at e
    | some v =>
      rw [hx] at e
      simp only [] at e ⊢
      split at e
      · simp at e
      · rename_i hit
        rw [if_neg hit]
        cases l with
        | root =>
          cases v with
          | tree t => exact ⟨_, t, rfl, rfl, rfl⟩
          | forest ts => simp at e
          | iter ts => simp at e
        | child q j =>
          simp only [] at e ⊢
          cases hat : v.at? (.child q j) with
          | none => rw [hat] at e; simp at e
          | some t => exact ⟨v, t, rfl, hat, rfl⟩
  obtain ⟨v, t, hx, hl, he⟩ := key
  rw [he] at e H'
  simp only [LStore.new, LOut.ref.injEq] at e
  subst e
  refine ⟨v, t, by rw [← hx, H.store]; rfl, hl, ?_⟩
  have main : ∀ (ops : List (LOp α)) {S1 : LStore α}, S.made < S1.made → S1.refs S.made = some (x, .node v l) → .release S.made ∉ ops →
      (runCalls lspec S1 ops).1.refs S.made = some (x, .node v l) := by
    intro ops
    induction ops with
    | nil => intro S1 _ h1 _; exact h1
    | cons op ops ih =>
      intro S1 hm h1 hn
      simp only [List.mem_cons, not_or] at hn
      simp only [runCalls]
      by_cases hop : op = .next S.made
      · subst hop
        have e : lspec S1 (.next S.made) = (S1, .rejected) := by simp only [lspec, clash, ldo, h1]; rfl
        rw [e]
        exact ih hm h1 hn.2
      · obtain ⟨g1, g2⟩ := Proof.keep_ref hm hop (Ne.symm hn.1)
        exact ih (Nat.lt_of_lt_of_le hm g2) (g1.trans h1) hn.2
  intro ops hn
  obtain ⟨H2, -⟩ := Proof.lsim_run ops H'
  rw [(lsim H2 (.look S.made)).2]
  have := main ops (S1 := (S.new x (.node v l)).1) (by simp [LStore.new]) (by simp [LStore.new]) hn
  simp only [LStore.new] at this
  simp only [lspec, clash, ldo, LStore.atRef, LStore.new, this, hl]; rfl

/-! ### A concrete case -/

/-- The tree `0( 1( 2 ) 3 )`; a breadth-first iterator over it and a reference to node 1, held while a tree is made, moved,
and dropped, the borrowed tree is cloned, and a call that would change it is refused. -/
def liveOps : List (LOp Nat) :=
  [.call (.treeNew 0), .call (.treeNew 1), .call (.treeNew 2), .call (.treeNew 3), .call (.pushBack 1 [] 2),
   .call (.pushBack 0 [] 1), .call (.pushBack 0 [] 3),
   .bfs 0 .root, .hold 0 (.child [] 0),
   .next 0, .call (.treeNew 7), .next 0, .call (.mapBfs 0 .root fun _ d => d), .call (.pushBack 5 [] 4), .next 0,
   .call (.drop 5), .call (.popFront 0 []), .look 1, .parentOf 1, .look 2, .iterOf 1, .next 3, .look 4, .next 3, .next 0, .next 0]

theorem live_outs : ((runCalls lstep .empty liveOps).2.drop 7) =
    [.ref 0, .ref 1, .visit (some (0, 2, 3)), .ok (.var 4), .visit (some (1, 1, 1)), .ok (.var 5), .ok .unit,
     .visit (some (3, 0, 0)), .ok .unit, .rejected, .node 1 1 2, .ref 2, .node 0 2 4, .ref 3, .ref 4, .node 2 0 1, .nothing,
     .visit (some (2, 0, 0)), .visit none] := by
  rw [(c69_program liveOps).1]
  rfl

end Trees
