import Verif.Proof.Pin
/-
The item of a node stays until it is assigned.
-/
namespace Trees
set_option linter.unusedSimpArgs false
set_option linter.unusedVariables false
variable {α β : Type}
open RTree

section
variable {m : Machine α} {K : Addr → List Addr}

/-- Every old node outside of `E` has the item that it has in `m`. -/
def itemC (m : Machine α) (E : Addr → Prop) : NCtx α α :=
  ⟨id, fun a b => a < m.heap.nextAddr → E a ∨ m.heap.val a = some b, fun _ => True, m.heap.nextAddr, m.heap.nextVec,
    fun a b h _ h' => absurd (Nat.lt_of_le_of_lt h h') (Nat.lt_irrefl _)⟩

theorem mrel_item (M : MInv m K) (E : Addr → Prop) : MRel (itemC m E) m m := by
  refine ⟨⟨rfl, rfl, rfl, rfl, rfl, rfl, rfl, rfl, rfl, rfl, rfl, rfl, List.map_id _, fun a => Data.mapD_id _, fun a b h _ => .inr h, Nat.le_refl _, Nat.le_refl _,
    fun v nv h1 h2 => ?_⟩, rfl, rfl⟩
  exact absurd (Nat.lt_of_le_of_lt h1 (M.st.vecB v nv h2).1) (Nat.lt_irrefl _)

theorem opRel_item {E : Addr → Prop} {op : Op α} (h : op.updates = false) : OpRel (itemC m E) op op := by
  cases op <;> simp only [Op.updates, reduceCtorEq] at h
  case treeFromTuple t => exact ⟨_, id, id, t, fun _ => ⟨rfl, trivial⟩, (Tup.map_same t).symm, (Tup.map_same t).symm⟩
  case forestFromTuple ts => exact ⟨_, id, id, ts, fun _ => ⟨rfl, trivial⟩, (Tup.mapL_same ts).symm, (Tup.mapL_same ts).symm⟩
  all_goals simp [OpRel, CRel, FRel, IRel, itemC]

/-- Items of old nodes after a call. -/
theorem items_after {E : Addr → Prop} {op : Op α} (h : ORelN (itemC m E) (step m op) (step m op)) :
    match step m op with
    | .ok m' _ => ∀ a b, a < m.heap.nextAddr → ¬E a → m'.heap.val a = some b → m.heap.val a = some b
    | .panic m' => ∀ a b, a < m.heap.nextAddr → ¬E a → m'.heap.val a = some b → m.heap.val a = some b
    | _ => True := by
  cases e : step m op <;> rw [e] at h <;> simp only [ORelN] at h
  · exact fun a b ha hE hb => (h.1.heap.lab a b hb ha).resolve_left hE
  · exact fun a b ha hE hb => (h.heap.lab a b hb ha).resolve_left hE
  · trivial
  · trivial

theorem items_keep (M : MInv m K) {op : Op α} (h : op.updates = false) : match step m op with
    | .ok m' _ => ∀ a b, a < m.heap.nextAddr → m'.heap.val a = some b → m.heap.val a = some b
    | .panic m' => ∀ a b, a < m.heap.nextAddr → m'.heap.val a = some b → m.heap.val a = some b
    | _ => True := by
  have := items_after (nat_step (mrel_item M fun _ => False) (opRel_item h))
  cases e : step m op <;> rw [e] at this <;> simp only at this ⊢
  · exact fun a b ha hb => this a b ha (fun h => h) hb
  · exact fun a b ha hb => this a b ha (fun h => h) hb

theorem items_set (M : MInv m K) {x : Var} {l : Loc} {n : Addr} (hn : ∀ k : Addr → Outcome (Machine α) α, m.onNode x l k = k n) (d : α) :
    match step m (.setData x l d) with
    | .ok m' _ => ∀ a b, a < m.heap.nextAddr → a ≠ n → m'.heap.val a = some b → m.heap.val a = some b
    | .panic m' => ∀ a b, a < m.heap.nextAddr → a ≠ n → m'.heap.val a = some b → m.heap.val a = some b
    | _ => True := by
  have r := mrel_item M (· = n)
  refine items_after ?_
  simp only [step, hn]
  exact .run r rfl (nat_dataMutSet ⟨rfl, fun _ => .inl rfl⟩) fun _ _ _ _ _ l => .ok r rfl l rfl
end

end Trees
