import Verif.Spec.Bfs
import Mathlib.Data.List.Basic
/-
Pure facts about level order: it is what a queue computes.
-/
namespace Trees
namespace RTree
variable {α β : Type}

theorem count_pos (t : RTree α) : 0 < t.count := by cases t; simp

theorem count_eq (t : RTree α) : t.count = countL t.kids + 1 := by cases t; simp

theorem countL_eq_zero {ts : List (RTree α)} (h : countL ts = 0) : ts = [] := by
  cases ts with
  | nil => rfl
  | cons t ts => have := count_pos t; simp at h; omega

/-- Breadth-first order computed with a queue. -/
def qbfs : List (RTree α) → List (RTree α)
  | [] => []
  | t :: ts => t :: qbfs (ts ++ t.kids)
termination_by ts => countL ts
decreasing_by simp [count_eq]; omega

@[simp] theorem qbfs_nil : qbfs ([] : List (RTree α)) = [] := by simp [qbfs]
theorem qbfs_cons (t : RTree α) (ts) : qbfs (t :: ts) = t :: qbfs (ts ++ t.kids) := by rw [qbfs]

theorem qbfs_append (ts us : List (RTree α)) : qbfs (ts ++ us) = ts ++ qbfs (us ++ ts.flatMap kids) := by
  induction ts generalizing us with
  | nil => simp
  | cons t ts ih =>
    rw [List.cons_append, qbfs_cons, List.append_assoc, ih]
    simp

theorem qbfs_level (ts : List (RTree α)) : qbfs ts = ts ++ qbfs (ts.flatMap kids) := by
  have := qbfs_append ts []
  simpa using this

theorem countL_kids (ts : List (RTree α)) : countL ts = ts.length + countL (ts.flatMap kids) := by
  induction ts with
  | nil => simp
  | cons t ts ih => simp [ih, count_eq t]; omega

theorem levels_eq (n : Nat) : ∀ ts : List (RTree α), countL ts ≤ n →
    (List.range n).flatMap (fun k => level k ts) = qbfs ts := by
  induction n with
  | zero => intro ts h; have := countL_eq_zero (Nat.le_zero.mp h); subst this; simp
  | succ n ih =>
    intro ts h
    rw [List.range_succ_eq_map, List.flatMap_cons, List.flatMap_map, qbfs_level]
    have hk := countL_kids ts
    have h1 : countL (ts.flatMap kids) ≤ n := by
      cases ts with
      | nil => simp
      | cons t ts => simp only [List.length_cons] at hk; omega
    rw [← ih _ h1]
    rfl

theorem levelOrder_eq (ts : List (RTree α)) : levelOrder ts = qbfs ts := levels_eq _ ts (Nat.le_refl _)

theorem qbfs_flat : ∀ (n : Nat) (ts : List (RTree α)), countL ts ≤ n → qbfs ts = ts ++ (qbfs ts).flatMap kids := by
  intro n
  induction n with
  | zero => intro ts h; have := countL_eq_zero (Nat.le_zero.mp h); subst this; simp
  | succ n ih =>
    intro ts h
    have hk := countL_kids ts
    have h1 : countL (ts.flatMap kids) ≤ n := by
      cases ts with
      | nil => simp
      | cons t ts => simp only [List.length_cons] at hk; omega
    rw [qbfs_level, List.flatMap_append, ← ih _ h1]

theorem qbfs_kids (ts : List (RTree α)) : qbfs ts = ts ++ (qbfs ts).flatMap kids := qbfs_flat _ ts (Nat.le_refl _)

theorem qbfs_length : ∀ (n : Nat) (ts : List (RTree α)), countL ts ≤ n → (qbfs ts).length = countL ts := by
  intro n
  induction n with
  | zero => intro ts h; have := countL_eq_zero (Nat.le_zero.mp h); subst this; simp
  | succ n ih =>
    intro ts h
    cases ts with
    | nil => simp
    | cons t ts =>
      have h2 : countL (ts ++ t.kids) + 1 = countL (t :: ts) := by simp [count_eq t]; omega
      rw [qbfs_cons, List.length_cons, ih _ (by omega), h2]

theorem length_qbfs (ts : List (RTree α)) : (qbfs ts).length = countL ts := qbfs_length _ ts (Nat.le_refl _)

/-- What is left in the queue after `k` steps. -/
theorem qbfs_drop : ∀ (k : Nat) (ts : List (RTree α)), k ≤ countL ts →
    qbfs ((ts ++ ((qbfs ts).take k).flatMap kids).drop k) = (qbfs ts).drop k ∧
    k ≤ (ts ++ ((qbfs ts).take k).flatMap kids).length := by
  intro k
  induction k with
  | zero => intro ts _; simp
  | succ k ih =>
    intro ts hk
    cases ts with
    | nil => simp at hk
    | cons t ts =>
      have h2 : countL (ts ++ t.kids) + 1 = countL (t :: ts) := by simp [count_eq t]; omega
      obtain ⟨h3, h4⟩ := ih (ts ++ t.kids) (by omega)
      rw [qbfs_cons]
      simp only [List.take_succ_cons, List.flatMap_cons, List.cons_append, List.drop_succ_cons, List.length_cons]
      rw [List.append_assoc] at h3 h4
      exact ⟨h3, by omega⟩

theorem count_map (f : α → β) (t : RTree α) : (t.map f).count = t.count := by
  induction t using RTree.ind with
  | h d ks ih =>
    simp only [map, count, mapL_eq]
    congr 1
    induction ks with
    | nil => rfl
    | cons k ks ihk =>
      simp only [List.map_cons, countL]
      rw [ih k (by simp), ihk (fun t ht => ih t (by simp [ht]))]

theorem countL_mapL (f : α → β) (ts : List (RTree α)) : countL (mapL f ts) = countL ts := by
  induction ts with
  | nil => rfl
  | cons t ts ih => simp [count_map, ih]

theorem kids_map (f : α → β) (t : RTree α) : (t.map f).kids = mapL f t.kids := by cases t; simp
theorem data_map (f : α → β) (t : RTree α) : (t.map f).data = f t.data := by cases t; simp

theorem qbfs_map (f : α → β) : ∀ (n : Nat) (ts : List (RTree α)), countL ts ≤ n →
    qbfs (mapL f ts) = (qbfs ts).map (map f) := by
  intro n
  induction n with
  | zero => intro ts h; have := countL_eq_zero (Nat.le_zero.mp h); subst this; simp
  | succ n ih =>
    intro ts h
    cases ts with
    | nil => simp
    | cons t ts =>
      have h2 : countL (ts ++ t.kids) + 1 = countL (t :: ts) := by simp [count_eq t]; omega
      rw [mapL, qbfs_cons, qbfs_cons, List.map_cons, ← ih _ (by omega), kids_map, mapL_append]

theorem qbfs_mapL (f : α → β) (ts : List (RTree α)) : qbfs (mapL f ts) = (qbfs ts).map (map f) :=
  qbfs_map f _ ts (Nat.le_refl _)

end RTree
end Trees
