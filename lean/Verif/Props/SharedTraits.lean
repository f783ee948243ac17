import Verif.Props.Shared
import Verif.Props.Traits
import Verif.Proof.RcTraits
/-
C50: comparison, order, hashing and printing of shared nodes.
All theorems range over every state a client program can reach by calls outside of the known defects, every two handles and all
implementations of the traits of the data type.
-/
namespace Trees
set_option linter.unusedSimpArgs false
set_option linter.unusedVariables false
variable {α σ : Type}
open Classical RTree

/-- A `RefMut` for the data of node `a` is alive. -/
noncomputable def RMachine.locked (m : RMachine α) (a : Addr) : Bool := decide (m.Guarded a true)

namespace Proof

theorem rd_ok {m : RMachine α} {G : Heap α} {K T} (I : RInv m G K T) : RdOK G K := ⟨I.inv, I.st, I.kv⟩

theorem locks {m : RMachine α} {G : Heap α} {K T} (I : RInv m G K T) (B : GInv m) : Locks m.locked G := by
  intro a hu
  simp only [RMachine.locked, decide_eq_true_eq]
  refine ⟨fun h => B.conflictS I hu h, fun h => ?_⟩
  by_contra hg
  exact h (B.shared I hu hg)

/-- What a handle refers to. -/
theorem handle {m : RMachine α} {G : Heap α} {K T} (I : RInv m G K T) {j : Var} {t : RTree (Addr × α)} {r : RcRef} (hj : m.look j = some t)
    (hr : m.refs j = some (.rc r)) : ∃ a, r.Is G a ∧ G.Used a ∧ Den G.lab K a t ∧ rcDepth r m.heap = (G.size a).descendants + 1 := by
  obtain ⟨a, h1, h2⟩ := I.look_iff.mp hj
  obtain ⟨b, h3, h4⟩ := I.rcs j r hr
  rw [h1] at h3; cases h3
  refine ⟨a, h4, (I.tgt j a h1).2.1, h2, ?_⟩
  rw [rcDepth, I.heap, h4.at_eq]
  rfl

end Proof

section
variable {m : RMachine α} (hm : SReachable m) {j k : Var} {t u : RTree (Addr × α)} {r q : RcRef}
  (hj : m.look j = some t) (hr : m.refs j = some (.rc r)) (hk : m.look k = some u) (hq : m.refs k = some (.rc q))
include hm hj hr

section
include hk hq

/-- **C50** `==` compares as far as needed and panics exactly if it has to look at a node whose data is mutably borrowed. Nothing changes:
no count, no borrow, no data. -/
theorem c50_eq_exact (eq : α → α → Bool) : eqRc eq r q m.heap = match eqV m.locked eq t u with
    | some b => .ok b m.heap
    | none => .err .panic m.heap := by
  obtain ⟨G, K, T, I, B⟩ := hm.si
  obtain ⟨a, a1, a2, a3, a4⟩ := Proof.handle I hj hr
  obtain ⟨b, b1, b2, b3, -⟩ := Proof.handle I hk hq
  have := rcEq_ok (e := extra G m.fresh T) eq (rcDepth r m.heap) (Proof.rd_ok I) (Proof.locks I B) a1 a2 b1 b2 a3 b3 (by omega)
  rw [← I.heap] at this
  refine Eq.trans this ?_
  split <;> (rename_i h; rw [h]; rfl)

/-- **C50** `!=`. -/
theorem c50_ne_exact (eq ne : α → α → Bool) (hne : ∀ d e, ne d e = !(eq d e)) : neRc eq ne r q m.heap = match eqV m.locked eq t u with
    | some b => .ok (!b) m.heap
    | none => .err .panic m.heap := by
  obtain ⟨G, K, T, I, B⟩ := hm.si
  obtain ⟨a, a1, a2, a3, a4⟩ := Proof.handle I hj hr
  obtain ⟨b, b1, b2, b3, -⟩ := Proof.handle I hk hq
  have := rcNe_ok (e := extra G m.fresh T) eq ne (k := rcDepth r m.heap) (Proof.rd_ok I) (Proof.locks I B) a1 a2 b1 b2 a3 b3 (by omega)
  rw [← I.heap] at this
  refine this.trans ?_
  obtain ⟨x, ts⟩ := t
  obtain ⟨y, us⟩ := u
  simp only [data_node, kids_node, eqV, hne]
  by_cases hl : (m.locked x.1 || m.locked y.1) = true
  · simp [hl]
  · rw [if_neg hl, if_neg hl]
    cases he : eq x.2 y.2 with
    | false => simp
    | true =>
      simp only [Bool.not_true, Bool.false_eq_true, if_false, if_true]
      cases eqVL m.locked eq ts us <;> simp

/-- **C50** `cmp`. -/
theorem c50_cmp_exact (c : α → α → Ordering) : cmpRc c r q m.heap = match cmpV m.locked c t u with
    | some b => .ok b m.heap
    | none => .err .panic m.heap := by
  obtain ⟨G, K, T, I, B⟩ := hm.si
  obtain ⟨a, a1, a2, a3, a4⟩ := Proof.handle I hj hr
  obtain ⟨b, b1, b2, b3, -⟩ := Proof.handle I hk hq
  have := rcCmp_ok (e := extra G m.fresh T) c (rcDepth r m.heap) (Proof.rd_ok I) (Proof.locks I B) a1 a2 b1 b2 a3 b3 (by omega)
  rw [← I.heap] at this
  refine Eq.trans this ?_
  split <;> (rename_i h; rw [h]; rfl)

/-- **C50** `partial_cmp`. -/
theorem c50_pcmp_exact (c : α → α → Option Ordering) : pcmpRc c r q m.heap = match pcmpV m.locked c t u with
    | some b => .ok b m.heap
    | none => .err .panic m.heap := by
  obtain ⟨G, K, T, I, B⟩ := hm.si
  obtain ⟨a, a1, a2, a3, a4⟩ := Proof.handle I hj hr
  obtain ⟨b, b1, b2, b3, -⟩ := Proof.handle I hk hq
  have := rcPcmp_ok (e := extra G m.fresh T) c (rcDepth r m.heap) (Proof.rd_ok I) (Proof.locks I B) a1 a2 b1 b2 a3 b3 (by omega)
  rw [← I.heap] at this
  refine Eq.trans this ?_
  split <;> (rename_i h; rw [h]; rfl)

/-- **C50** two handles are `==` exactly if the trees below them have the same shape and equal data at every position, whoever else holds
handles into these trees; an answer is impossible only if some node of the two trees is mutably borrowed (then `==` panics). -/
theorem c50_eq (eq : α → α → Bool) : (∃ b, eqRc eq r q m.heap = .ok b m.heap ∧ (b = true ↔ RTree.Same (fun d e => eq d e = true) t.plain u.plain)) ∨
    (eqRc eq r q m.heap = .err .panic m.heap ∧ ∃ a, (a ∈ t.ids ∨ a ∈ u.ids) ∧ m.Guarded a true) := by
  rw [c50_eq_exact hm hj hr hk hq]
  rcases eqV_cases (lk := m.locked) eq t u with h | ⟨h, a, h1, h2⟩
  · rw [h]; exact .inl ⟨_, rfl, eqB_iff eq _ _⟩
  · rw [h]; exact .inr ⟨rfl, a, h1, by simpa [RMachine.locked] using h2⟩

/-- **C50** the order of handles is the order of the trees below them. -/
theorem c50_cmp (c : α → α → Ordering) : cmpRc c r q m.heap = .ok (RTree.cmp c t.plain u.plain) m.heap ∨
    (cmpRc c r q m.heap = .err .panic m.heap ∧ ∃ a, (a ∈ t.ids ∨ a ∈ u.ids) ∧ m.Guarded a true) := by
  rw [c50_cmp_exact hm hj hr hk hq]
  rcases cmpV_cases (lk := m.locked) c t u with h | ⟨h, a, h1, h2⟩
  · rw [h]; exact .inl rfl
  · rw [h]; exact .inr ⟨rfl, a, h1, by simpa [RMachine.locked] using h2⟩

theorem c50_pcmp (c : α → α → Option Ordering) : pcmpRc c r q m.heap = .ok (RTree.pcmp c t.plain u.plain) m.heap ∨
    (pcmpRc c r q m.heap = .err .panic m.heap ∧ ∃ a, (a ∈ t.ids ∨ a ∈ u.ids) ∧ m.Guarded a true) := by
  rw [c50_pcmp_exact hm hj hr hk hq]
  rcases pcmpV_cases (lk := m.locked) c t u with h | ⟨h, a, h1, h2⟩
  · rw [h]; exact .inl rfl
  · rw [h]; exact .inr ⟨rfl, a, h1, by simpa [RMachine.locked] using h2⟩

/-- **C50** without mutable borrows in the two trees all comparisons succeed. -/
theorem c50_unlocked (hl : ∀ a, a ∈ t.ids ∨ a ∈ u.ids → ¬ m.Guarded a true) (eq : α → α → Bool) (c : α → α → Ordering) (pc : α → α → Option Ordering) :
    (∃ b, eqRc eq r q m.heap = .ok b m.heap ∧ (b = true ↔ RTree.Same (fun d e => eq d e = true) t.plain u.plain)) ∧
    cmpRc c r q m.heap = .ok (RTree.cmp c t.plain u.plain) m.heap ∧ pcmpRc pc r q m.heap = .ok (RTree.pcmp pc t.plain u.plain) m.heap := by
  refine ⟨?_, ?_, ?_⟩
  · rcases c50_eq hm hj hr hk hq eq with h | ⟨-, a, h1, h2⟩
    · exact h
    · exact absurd h2 (hl a h1)
  · rcases c50_cmp hm hj hr hk hq c with h | ⟨-, a, h1, h2⟩
    · exact h
    · exact absurd h2 (hl a h1)
  · rcases c50_pcmp hm hj hr hk hq pc with h | ⟨-, a, h1, h2⟩
    · exact h
    · exact absurd h2 (hl a h1)

/-- **C50** handles that are `==` hash equally under every hasher, if items of `T` do. -/
theorem c50_equal_hash {eq : α → α → Bool} {hs : α → σ → σ} (hT : ∀ d e s, eq d e = true → hs d s = hs e s) (s : σ)
    (he : eqRc eq r q m.heap = .ok true m.heap) : hashRc hs r s m.heap = hashRc hs q s m.heap := by
  obtain ⟨G, K, T, I, B⟩ := hm.si
  obtain ⟨a, a1, a2, a3, a4⟩ := Proof.handle I hj hr
  obtain ⟨b, b1, b2, b3, b4⟩ := Proof.handle I hk hq
  have h1 := rcHash_ok (e := extra G m.fresh T) (s := s) hs (rcDepth r m.heap) (Proof.rd_ok I) (Proof.locks I B) a1 a2 a3 (by omega)
  have h2 := rcHash_ok (e := extra G m.fresh T) (s := s) hs (rcDepth q m.heap) (Proof.rd_ok I) (Proof.locks I B) b1 b2 b3 (by omega)
  rw [← I.heap] at h1 h2
  rw [hashRc, hashRc, M.fuelled_apply, M.fuelled_apply, h1, h2]
  rw [c50_eq_exact hm hj hr hk hq] at he
  have he' : eqV m.locked eq t u = some true := by
    cases h : eqV m.locked eq t u with
    | none => rw [h] at he; simp at he
    | some b => rw [h] at he; simp at he; rw [he]
  exact congrArg (fun o => ofOpt o m.heap) (goV_of_eq hT t u he' s)

end

/-- **C50** hashing feeds the data in pre-order to the hasher; it panics exactly if some node is mutably borrowed. -/
theorem c50_hash (hs : α → σ → σ) (s : σ) :
    ((∀ a ∈ t.ids, ¬ m.Guarded a true) → hashRc hs r s m.heap = .ok (t.plain.pre.foldl (fun s d => hs d s) s) m.heap) ∧
    ((∃ a ∈ t.ids, m.Guarded a true) → hashRc hs r s m.heap = .err .panic m.heap) := by
  obtain ⟨G, K, T, I, B⟩ := hm.si
  obtain ⟨a, a1, a2, a3, a4⟩ := Proof.handle I hj hr
  have h1 := rcHash_ok (e := extra G m.fresh T) (s := s) hs (rcDepth r m.heap) (Proof.rd_ok I) (Proof.locks I B) a1 a2 a3 (by omega)
  rw [← I.heap] at h1
  rw [hashRc, M.fuelled_apply, h1]
  refine ⟨fun hl => ?_, fun ⟨a, h2, h3⟩ => ?_⟩
  · have : ¬ t.pre.any (fun x => m.locked x.1) = true := by
      intro h
      obtain ⟨x, h2, h3⟩ := List.any_eq_true.mp h
      exact hl x.1 (List.mem_map.mpr ⟨x, h2, rfl⟩) (by simpa [RMachine.locked] using h3)
    simp only [goV, this, if_false, ofOpt_some, RTree.plain, RTree.pre_map', List.foldl_map, Bool.false_eq_true]
  · obtain ⟨x, h4, rfl⟩ := List.mem_map.mp h2
    have : t.pre.any (fun x => m.locked x.1) = true := List.any_eq_true.mpr ⟨x, h4, by simpa [RMachine.locked] using h3⟩
    simp only [goV, this, if_true, ofOpt_none]

/-- **C50** `to_string()` has the documented form; it panics exactly if some node is mutably borrowed. -/
theorem c50_display (sh : α → List Char) :
    ((∀ a ∈ t.ids, ¬ m.Guarded a true) → fmtRc sh r m.heap = .ok (render sh t.plain) m.heap) ∧
    ((∃ a ∈ t.ids, m.Guarded a true) → fmtRc sh r m.heap = .err .panic m.heap) := by
  obtain ⟨G, K, T, I, B⟩ := hm.si
  obtain ⟨a, a1, a2, a3, a4⟩ := Proof.handle I hj hr
  have h1 := rcFmt_ok (e := extra G m.fresh T) (o := []) sh (rcDepth r m.heap) (Proof.rd_ok I) (Proof.locks I B) a1 a2 a3 (by omega)
  rw [← I.heap] at h1
  rw [fmtRc, M.fuelled_apply, h1]
  refine ⟨fun hl => ?_, fun ⟨a, h2, h3⟩ => ?_⟩
  · have : ¬ t.pre.any (fun x => m.locked x.1) = true := by
      intro h
      obtain ⟨x, h2, h3⟩ := List.any_eq_true.mp h
      exact hl x.1 (List.mem_map.mpr ⟨x, h2, rfl⟩) (by simpa [RMachine.locked] using h3)
    simp only [this, if_false, ofOpt_some, Bool.false_eq_true, List.nil_append]
  · obtain ⟨x, h4, rfl⟩ := List.mem_map.mp h2
    have : t.pre.any (fun x => m.locked x.1) = true := List.any_eq_true.mpr ⟨x, h4, by simpa [RMachine.locked] using h3⟩
    simp only [this, if_true, ofOpt_none]

end

/-! ### Non-vacuity -/

/-- Two handles to the same node are equal (variables 5 and 6 of the demo state). -/
example : ∃ r q, sdemo.refs 5 = some (.rc r) ∧ sdemo.refs 6 = some (.rc q) ∧
    ((∀ a, ¬ sdemo.Guarded a true) → eqRc (fun d e : Nat => d == e) r q sdemo.heap = .ok true sdemo.heap ∧ fmtRc unary r sdemo.heap = .ok "ii( iii )".toList sdemo.heap) := by
  obtain ⟨r, hr⟩ := look_ref sdemo_look5
  obtain ⟨q, hq⟩ := look_ref sdemo_look6
  refine ⟨r, q, hr, hq, fun hg => ⟨?_, ?_⟩⟩
  · obtain ⟨⟨b, h1, h2⟩, -, -⟩ := c50_unlocked sdemo_reach sdemo_look5 hr sdemo_look6 hq (fun a _ => hg a) (fun d e : Nat => d == e) compare (fun _ _ => none)
    have : b = true := h2.mpr (by simp [RTree.plain, RTree.map, RTree.mapL, RTree.Same, SameL])
    rw [h1, this]
  · have h1 := (c50_display sdemo_reach sdemo_look5 hr unary).1 (fun a _ => hg a)
    rw [h1]; rfl

/-- The demo state while the data of node `2` is mutably borrowed through variable 6; variable 11 is a handle to leaf `4`. -/
def sdemoLk : RMachine Nat := sAfter (sdemoOps ++ [.borrowMut 6, .back 4])

theorem sdemoLk_reach : SReachable sdemoLk := sAfter_reach _
theorem sdemoLk_look4 : sdemoLk.look 4 = some (.node (0,1) [.node (1,2) [.node (2,3) []], .node (3,4) []]) :=
  RMachine.look_of_shows (by decide +kernel)


theorem sdemoLk_guard : sdemoLk.Guarded 1 true := ⟨10, 6, by
  have h : (match sdemoLk.refs 10 with | some (.guard k a w) => decide (k = 6 ∧ a = 1 ∧ w = true) | _ => false) = true := by decide +kernel
  cases hc : sdemoLk.refs 10 with
  | none => rw [hc] at h; simp at h
  | some r =>
    rw [hc] at h
    cases r <;> simp at h
    obtain ⟨rfl, rfl, rfl⟩ := h
    rfl⟩

/-- The root cannot be printed then. -/
example : ∃ r, sdemoLk.refs 4 = some (.rc r) ∧ fmtRc unary r sdemoLk.heap = .err .panic sdemoLk.heap := by
  obtain ⟨r, hr⟩ := look_ref sdemoLk_look4
  exact ⟨r, hr, (c50_display sdemoLk_reach sdemoLk_look4 hr unary).2 ⟨1, by simp [RTree.ids], sdemoLk_guard⟩⟩

end Trees
