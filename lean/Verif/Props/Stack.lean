import Verif.Proof.Stack
import Verif.Props.Traits
import Verif.Props.Cost
/-
C64: the stack that destructors, hashing, printing and comparisons need.
-/
namespace Trees
open RTree
variable {α σ : Type}

namespace Proof

theorem run_within {m : Machine α} {env : Var → Option Handle} {c : M α (Option Unit)} {c' : M α Unit} {P : Prop} {Q : Prop}
    (h : (P → c m.heap = (c' m.heap).bind fun _ h' => .ok (some ()) h') ∧ (Q → ∃ h', c m.heap = .ok none h')) :
    (P → m.runWithin env c = some (m.run env c' fun _ h => m.ret h env .unit)) ∧ (Q → m.runWithin env c = none) := by
  refine ⟨fun p => ?_, fun q => ?_⟩
  · simp only [Machine.runWithin, Machine.run, h.1 p]
    cases c' m.heap with
    | ok b h' => rfl
    | err x h' => cases x <;> rfl
  · obtain ⟨h', e⟩ := h.2 q
    simp only [Machine.runWithin, e]

theorem exec_append {τ : Type} (st : τ → Op α → Outcome τ α) (as bs : List (Op α)) (s : τ) :
    (exec st s (as ++ bs)).1 = (exec st (exec st s as).1 bs).1 := by
  induction as generalizing s with
  | nil => rfl
  | cons a as ih => simp only [List.cons_append, exec, ih]

end Proof

/-- **C64** in every reachable state the drop of a value, with room for `L` nested calls of destructors, is the drop if the value
has at most `L` levels, and overflows the stack if it has more. -/
theorem c64_drop {m : Machine α} (hr : Reachable m) {x : Var} {v : Val α} (hx : m.store.vars x = some v) (L : Nat) :
    (v.frames ≤ L → m.dropWithin L x = some (step m (.drop x))) ∧ (L < v.frames → m.dropWithin L x = none) := by
  obtain ⟨K, M⟩ := Proof.reachable_minv hr
  have hA := M.abs_store.vars x
  cases he : m.env x with
  | none => rw [he] at hA; rw [hA] at hx; cases hx
  | some hd =>
    rw [he] at hA
    obtain ⟨w, hw, hden⟩ := hA
    rw [hw] at hx
    obtain rfl := Option.some.inj hx
    have ho := M.hnd x hd he
    cases hd with
    | tree r =>
      cases w with
      | tree t =>
        cases t with
        | node d us =>
        simp only [HDen, Den_node] at hden
        simp only [Machine.dropWithin, he, step, Val.frames, height]
        exact Proof.run_within (by simpa only [Nat.succ_le_iff, Nat.lt_succ_iff] using dropRootWithin_iff L M.inv M.st ho.used ho.root hden.2)
      | _ => simp [HDen] at hden
    | forest r =>
      cases w with
      | forest ts =>
        simp only [HDen] at hden
        simp only [Machine.dropWithin, he, step, Val.frames]
        exact Proof.run_within (by simpa only [Nat.succ_le_iff, Nat.lt_succ_iff] using dropRootWithin_iff L M.inv M.st ho.used ho.root hden)
      | _ => simp [HDen] at hden
    | iter r =>
      cases w with
      | iter ts =>
        simp only [HDen] at hden
        simp only [Machine.dropWithin, he, step, Val.frames]
        exact Proof.run_within (intoIterWithin_iff L M.inv M.st ho.used ho.root hden)
      | _ => simp [HDen] at hden

/-- A program of `2 n + 1` calls that puts a chain of `n + 1` nodes into variable `n`, by adding roots on top. -/
def deepProg (d : α) : Nat → List (Op α)
  | 0 => [.treeNew d]
  | n+1 => deepProg d n ++ [.treeNew d, .pushBack (n+1) [] n]

namespace Proof

theorem chain_height (d : α) : ∀ n, (chain d n).height = n + 1
  | 0 => rfl
  | n+1 => by simp [chain, height, heightL, chain_height d n]

theorem deep_store (d : α) : ∀ n, (exec specStep Store.empty (deepProg d n)).1 =
    ⟨fun y => if y = n then some (.tree (chain d n)) else none, n + 1, []⟩
  | 0 => by
    simp only [deepProg, exec, specStep, Store.bind, Store.empty, chain]
  | n+1 => by
    rw [deepProg, exec_append, deep_store d n]
    simp only [exec, specStep, Store.bind, Store.takeTree, Store.onKids]
    simp [upd_apply, Store.setKids, Store.set, Val.kids, kidsAt, Val.setKids, modKids, chain, Val.isIter]
    funext y
    by_cases h1 : y = n + 1
    · simp [upd_apply, h1]
    · by_cases h2 : y = n
      · simp [upd_apply, h2]
      · simp [upd_apply, h1, h2]

theorem deep_ends (d : α) : ∀ n op, op ∈ deepProg d n → Spec.atEnds op
  | 0, op, h => by simp only [deepProg, List.mem_singleton] at h; subst h; trivial
  | n+1, op, h => by
    simp only [deepProg, List.mem_append, List.mem_cons, List.not_mem_nil, or_false] at h
    rcases h with h | rfl | rfl
    · exact deep_ends d n op h
    · trivial
    · rfl

theorem deep_length (d : α) : ∀ n, (deepProg d n).length = 2 * n + 1
  | 0 => rfl
  | n+1 => by simp [deepProg, deep_length d n]; omega

theorem exec_reachable : ∀ (ops : List (Op α)) {m : Machine α}, Reachable m → Reachable (exec step m ops).1
  | [], m, h => h
  | op :: ops, m, h => by
    simp only [exec]
    refine exec_reachable ops ?_
    cases e : step m op with
    | ok m' o => exact .ok h e
    | panic m' => exact .panic h e
    | rejected => exact h
    | bad => exact h

end Proof

/-- **C64** no stack is large enough: for every `L` a program of `2 L + 1` calls, each of which does a constant amount of work, builds
a tree whose drop overflows a stack with room for `L` nested calls. -/
theorem c64_deep (d : α) (L : Nat) : ∃ ops : List (Op α), ops.length = 2 * L + 1 ∧ (∀ op, op ∈ ops → Spec.atEnds op) ∧
    (Machine.empty : Machine α).accessesAll ops ≤ 12 * (2 * L + 1) ∧
    ∃ x, (exec step Machine.empty ops).1.store.vars x = some (.tree (chain d L)) ∧
      (exec step Machine.empty ops).1.dropWithin L x = none := by
  refine ⟨deepProg d L, Proof.deep_length d L, Proof.deep_ends d L, ?_, L, ?_⟩
  · rw [← Proof.deep_length d L]; exact c63_linear (Proof.deep_ends d L)
  · have hs : (exec step (Machine.empty : Machine α) (deepProg d L)).1.store.vars L = some (.tree (chain d L)) := by
      rw [(c10_programs (deepProg d L)).2, Proof.deep_store]; simp
    refine ⟨hs, (c64_drop (Proof.exec_reachable _ .init) hs L).2 ?_⟩
    rw [Val.frames, Proof.chain_height]
    exact Nat.lt_succ_self _

section
variable {m : Machine α} (hr : Reachable m) {x y : Var} {l l' : Loc} {v w : Val α} {t u : RTree α}
include hr

/-- **C64** hashing a node needs room for as many calls as its tree has levels. -/
theorem c64_hash (hx : m.view x = some v) (ht : v.at? l = some t) (hs : α → σ → σ) (s : σ) (L : Nat) :
    ∃ a, m.nodeAt x l.path = some a ∧
      (t.height ≤ L → nodeHash hs L a s m.heap = hashNode hs a s m.heap) ∧ (L < t.height → nodeHash hs L a s m.heap = .err .fuel m.heap) := by
  obtain ⟨K, M⟩ := Proof.reachable_minv hr
  obtain ⟨a, h1, h2, h3⟩ := Proof.node_den M hx ht
  obtain ⟨g1, g2⟩ := nodeHash_iff M.inv hs L (s := s) h2 h3
  refine ⟨a, h1, fun hl => ?_, g2⟩
  rw [g1 hl]
  exact (nodeHash_ok M.inv hs _ h2 h3 (Nat.lt_succ_self _)).symm

/-- **C64** so does printing it. -/
theorem c64_display (hx : m.view x = some v) (ht : v.at? l = some t) (sh : α → List Char) (L : Nat) :
    ∃ a, m.nodeAt x l.path = some a ∧
      (t.height ≤ L → nodeFmt sh L a [] m.heap = fmtNode sh a m.heap) ∧ (L < t.height → nodeFmt sh L a [] m.heap = .err .fuel m.heap) := by
  obtain ⟨K, M⟩ := Proof.reachable_minv hr
  obtain ⟨a, h1, h2, h3⟩ := Proof.node_den M hx ht
  obtain ⟨g1, g2⟩ := nodeFmt_iff M.inv sh L (o := []) h2 h3
  refine ⟨a, h1, fun hl => ?_, g2⟩
  rw [g1 hl]
  exact (nodeFmt_ok M.inv sh _ h2 h3 (Nat.lt_succ_self _)).symm

/-- **C64** a comparison never needs more than the levels of the left operand, and needs that many if the operands are equal. -/
theorem c64_eq (hx : m.view x = some v) (ht : v.at? l = some t) (hy : m.view y = some w) (hu : w.at? l' = some u)
    (eq : α → α → Bool) (L : Nat) : ∃ a b, m.nodeAt x l.path = some a ∧ m.nodeAt y l'.path = some b ∧
      (t.height ≤ L → nodeEq eq L a b m.heap = eqNode eq a b m.heap) ∧
      (RTree.Same (fun d e => eq d e = true) t u → L < t.height → nodeEq eq L a b m.heap = .err .fuel m.heap) := by
  obtain ⟨K, M⟩ := Proof.reachable_minv hr
  obtain ⟨a, h1, h2, h3⟩ := Proof.node_den M hx ht
  obtain ⟨b, k1, k2, k3⟩ := Proof.node_den M hy hu
  refine ⟨a, b, h1, k1, fun hl => ?_, fun hs hl => nodeEq_over M.inv eq L h2 k2 h3 k3 ((eqB_iff eq t u).mpr hs) hl⟩
  rw [nodeEq_within M.inv eq L h2 k2 h3 k3 hl]
  exact (nodeEq_ok M.inv eq _ h2 k2 h3 k3 (Nat.lt_succ_self _)).symm

/-- **C64** The same for `cmp`. -/
theorem c64_cmp (hx : m.view x = some v) (ht : v.at? l = some t) (hy : m.view y = some w) (hu : w.at? l' = some u)
    (o : α → α → Ordering) (L : Nat) : ∃ a b, m.nodeAt x l.path = some a ∧ m.nodeAt y l'.path = some b ∧
      (t.height ≤ L → nodeCmp o L a b m.heap = cmpNode o a b m.heap) ∧
      (RTree.cmp o t u = .eq → L < t.height → nodeCmp o L a b m.heap = .err .fuel m.heap) := by
  obtain ⟨K, M⟩ := Proof.reachable_minv hr
  obtain ⟨a, h1, h2, h3⟩ := Proof.node_den M hx ht
  obtain ⟨b, k1, k2, k3⟩ := Proof.node_den M hy hu
  refine ⟨a, b, h1, k1, fun hl => ?_, fun hs hl => nodeCmp_over M.inv o L h2 k2 h3 k3 hs hl⟩
  rw [nodeCmp_within M.inv o L h2 k2 h3 k3 hl]
  exact (nodeCmp_ok M.inv o _ h2 k2 h3 k3 (Nat.lt_succ_self _)).symm

/-- **C64** The same for `partial_cmp`. -/
theorem c64_partial_cmp (hx : m.view x = some v) (ht : v.at? l = some t) (hy : m.view y = some w) (hu : w.at? l' = some u)
    (o : α → α → Option Ordering) (L : Nat) : ∃ a b, m.nodeAt x l.path = some a ∧ m.nodeAt y l'.path = some b ∧
      (t.height ≤ L → nodePcmp o L a b m.heap = pcmpNode o a b m.heap) ∧
      (RTree.pcmp o t u = some .eq → L < t.height → nodePcmp o L a b m.heap = .err .fuel m.heap) := by
  obtain ⟨K, M⟩ := Proof.reachable_minv hr
  obtain ⟨a, h1, h2, h3⟩ := Proof.node_den M hx ht
  obtain ⟨b, k1, k2, k3⟩ := Proof.node_den M hy hu
  refine ⟨a, b, h1, k1, fun hl => ?_, fun hs hl => nodePcmp_over M.inv o L h2 k2 h3 k3 hs hl⟩
  rw [nodePcmp_within M.inv o L h2 k2 h3 k3 hl]
  exact (nodePcmp_ok M.inv o _ h2 k2 h3 k3 (Nat.lt_succ_self _)).symm

end

/-! Concrete cases. -/

/-- A tree of three levels and five nodes. -/
def stackProg : List (Op Nat) :=
  [.treeNew 1, .treeNew 2, .treeNew 3, .treeNew 4, .treeNew 5, .pushBack 1 [] 2, .pushBack 1 [] 3, .pushBack 0 [] 1, .pushBack 0 [] 4]

/-- The tree has three levels: room for two calls is not enough. -/
example : ((exec step Machine.empty stackProg).1.dropWithin 2 0).isNone = true ∧
    (((exec step Machine.empty stackProg).1.dropWithin 3 0).map fun o => match o with
      | .ok m _ => m.heap.log | _ => []) = some [3, 4, 2, 5, 1] := by decide +kernel

/-- As a forest its children need three calls too: `Forest`'s root has a destructor of its own. -/
example : ((List.range 5).map fun L => ((exec step Machine.empty (stackProg ++ [.abandon 0])).1.dropWithin L 5).isNone) =
    [true, true, true, false, false] := by decide +kernel

/-- An `IntoIter` pops them one by one, so two calls are enough. -/
example : ((List.range 5).map fun L =>
    ((exec step Machine.empty (stackProg ++ [.abandon 0, .intoIter 5])).1.dropWithin L 6).isNone) =
    [true, true, false, false, false] := by decide +kernel

/-- Hashing the tree. -/
example : ((List.range 5).map fun L => match (nodeHash (σ := Nat) (fun d s => d + 10 * s) L ((exec step Machine.empty stackProg).1.nodeAt 0 [] |>.getD 99)
      0 (exec step Machine.empty stackProg).1.heap) with | .ok .. => true | .err .. => false) =
    [false, false, false, true, true] := by decide +kernel

/-- Comparing it with itself. -/
example : ((List.range 5).map fun L => match (nodeCmp (α := Nat) compare L
      ((exec step Machine.empty stackProg).1.nodeAt 0 [] |>.getD 99) ((exec step Machine.empty stackProg).1.nodeAt 0 [] |>.getD 99)
      (exec step Machine.empty stackProg).1.heap) with | .ok o _ => o == .eq | .err .. => false) =
    [false, false, false, true, true] := by decide +kernel

end Trees
