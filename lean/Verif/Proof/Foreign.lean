import Verif.Model.Foreign
import Verif.Props.VisitsExact
/-
A client's trees: what `Splitted` makes of them.
-/
namespace Trees
set_option linter.unusedSimpArgs false
variable {α ι κ δ σ τ : Type}
open RTree

namespace Foreign

/-- `next()` of the queue, without the heap. -/
def step (F : Foreign ι κ δ) : List ι → Option (δ × Size) × List ι
  | [] => (none, [])
  | it :: rest => match F.next it with
    | (some k, it') => (some ((F.split k).1, F.claim k), it' :: rest ++ [(F.split k).2.1])
    | (none, _) => step F rest

theorem next_eq (F : Foreign ι κ δ) (h : Heap α) : ∀ s : List ι, splittedNext F.src s h = .ok (F.step s) h
  | [] => rfl
  | it :: rest => by
    have e : (F.src.next it : M α _) h = .ok (F.next it) h := rfl
    rw [splittedNext, step, M.bind_apply, e, Res.bind_ok]
    rcases F.next it with ⟨_ | k, it'⟩
    · exact next_eq F h rest
    · rfl

theorem step_nil {F : Foreign ι κ δ} : ∀ {s : List ι} {tss : List (List (RTree (δ × Size)))}, List.Forall₂ (Lists F) s tss → tss.flatten = [] →
    F.step s = (none, [])
  | _, _, .nil, _ => rfl
  | _, _, .cons (l₁ := rest) h hs, e => by
    simp only [List.flatten_cons, List.append_eq_nil_iff] at e
    obtain ⟨rfl, e⟩ := e
    cases h with
    | nil hn => rw [step, hn]; exact step_nil hs e

theorem step_cons {F : Foreign ι κ δ} : ∀ {s : List ι} {tss : List (List (RTree (δ × Size)))} {t r}, List.Forall₂ (Lists F) s tss → tss.flatten = t :: r →
    ∃ s' tss', F.step s = (some t.data, s') ∧ List.Forall₂ (Lists F) s' tss' ∧ tss'.flatten = r ++ t.kids
  | _, _, _, _, .nil, e => by simp at e
  | _, _, t, r, .cons (l₁ := rest) (l₂ := tss) h hs, e => by
    cases h with
    | nil hn =>
      simp only [List.flatten_cons, List.nil_append] at e
      obtain ⟨s', tss', h1, h2⟩ := step_cons hs e
      exact ⟨s', tss', by rw [step, hn]; exact h1, h2⟩
    | @cons it it' k ks ts hn hk ht =>
      simp only [List.flatten_cons, List.cons_append, List.cons.injEq] at e
      obtain ⟨rfl, rfl⟩ := e
      refine ⟨it' :: rest ++ [(F.split k).2.1], ts :: tss ++ [ks], by rw [step, hn]; rfl, ?_, by simp [RTree.kids]⟩
      exact List.Forall₂.cons ht (List.rel_append hs (.cons hk .nil))

/-- The first calls of `next()` yield `xs` and leave the queue `s'`. -/
inductive Gives (F : Foreign ι κ δ) : List ι → List (δ × Size) → List ι → Prop
  | nil {s} : Gives F s [] s
  | cons {s s1 s' v xs} : F.step s = (some v, s1) → Gives F s1 xs s' → Gives F s (v :: xs) s'

theorem gives {F : Foreign ι κ δ} : ∀ (n : Nat) {ts} {s : List ι} {tss : List (List (RTree (δ × Size)))}, countL ts ≤ n →
    List.Forall₂ (Lists F) s tss → tss.flatten = ts → ∃ s', Gives F s ((qbfs ts).map data) s' ∧ F.step s' = (none, []) := by
  intro n
  induction n with
  | zero =>
    intro ts s tss hn hs e
    have := countL_eq_zero (Nat.le_zero.mp hn); subst this
    exact ⟨s, by simpa using Gives.nil, step_nil hs e⟩
  | succ n ih =>
    intro ts s tss hn hs e
    cases ts with
    | nil => exact ⟨s, by simpa using Gives.nil, step_nil hs e⟩
    | cons t ts =>
      have h2 : countL (ts ++ t.kids) + 1 = countL (t :: ts) := by simp [count_eq t]; omega
      obtain ⟨s1, tss1, e1, hs1, e2⟩ := step_cons hs e
      obtain ⟨s', hg, hd⟩ := ih (ts := ts ++ t.kids) (by omega) hs1 e2
      exact ⟨s', by rw [qbfs_cons]; exact .cons e1 hg, hd⟩

theorem lists_gives {F : Foreign ι κ δ} {it : ι} {ts : List (RTree (δ × Size))} (h : Lists F it ts) :
    ∃ s', Gives F [it] ((levelOrder ts).map data) s' ∧ F.step s' = (none, []) := by
  rw [levelOrder_eq]
  exact gives _ (Nat.le_refl _) (tss := [ts]) (.cons h .nil) (by simp)

/-- `k` calls of `next()`. -/
theorem drive_gives {F : Foreign ι κ δ} (h : Heap α) : ∀ (k : Nat) {s s' : List ι} {xs : List (δ × Size)}, Gives F s xs s' → F.step s' = (none, []) →
    ∃ s'', driveVisits (splittedNext F.src) k s h = .ok ((List.range k).map (fun i => xs[i]?), s'') h := by
  intro k
  induction k with
  | zero => intro s s' xs _ _; exact ⟨s, rfl⟩
  | succ k ih =>
    intro s s' xs hg hd
    cases hg with
    | nil =>
      obtain ⟨s'', e⟩ := ih (s := []) (s' := []) (xs := []) .nil rfl
      refine ⟨s'', ?_⟩
      simp only [driveVisits, M.bind_apply, next_eq, hd, Res.bind_ok, e, M.pure_apply]
      simp [List.range_succ_eq_map, Function.comp_def]
    | cons e1 hg =>
      obtain ⟨s'', e⟩ := ih hg hd
      refine ⟨s'', ?_⟩
      simp only [driveVisits, M.bind_apply, next_eq, e1, Res.bind_ok, e, M.pure_apply]
      simp [List.range_succ_eq_map, Function.comp_def]

/-! ### The loop that builds -/

/-- The items as the closure leaves them. -/
def mapped (f : Nat → δ → α) (i : Nat) (xs : List (δ × Size)) : List (α × Size) := xs.mapIdx fun j v => (f (i + j) v.1, v.2)

theorem mapped_cons (f : Nat → δ → α) (i : Nat) (v : δ × Size) (xs : List (δ × Size)) :
    mapped f i (v :: xs) = (f i v.1, v.2) :: mapped f (i + 1) xs := by
  simp [mapped, List.mapIdx_cons]
  congr 1
  funext j w
  rw [show i + (j + 1) = i + 1 + j by omega]

/-- The result of a computation, without the value. -/
def Same {β γ : Type} (r : Res (Heap α) β) (q : Res (Heap α) γ) : Prop :=
  (∃ b c h, r = .ok b h ∧ q = .ok c h) ∨ ∃ e h, r = .err e h ∧ q = .err e h

theorem Same.bind {β γ β' γ' : Type} {r : Res (Heap α) β} {q : Res (Heap α) γ} (h : Same r q) {f : β → Heap α → Res (Heap α) β'}
    {g : γ → Heap α → Res (Heap α) γ'} (hf : ∀ b c h, Same (f b h) (g c h)) : Same (r.bind f) (q.bind g) := by
  rcases h with ⟨b, c, h, rfl, rfl⟩ | ⟨e, h, rfl, rfl⟩
  · exact hf b c h
  · exact .inr ⟨e, h, rfl, rfl⟩

theorem Same.bindEq {β β' γ' : Type} {r : Res (Heap α) β} {f : β → Heap α → Res (Heap α) β'}
    {g : β → Heap α → Res (Heap α) γ'} (hf : ∀ b h, Same (f b h) (g b h)) : Same (r.bind f) (r.bind g) := by
  cases r with
  | ok b h => exact hf b h
  | err e h => exact .inr ⟨e, h, rfl, rfl⟩

theorem mapNext_eq (F : Foreign ι κ δ) (f : Nat → δ → α) (s : List ι) (i : Nat) (h : Heap α) :
    mapNext f (splittedNext F.src) (s, i) h = match F.step s with
      | (some v, s') => .ok (some (f i v.1, v.2), (s', i + 1)) h
      | (none, s') => .ok (none, (s', i)) h := by
  simp only [mapNext, M.bind_apply, next_eq, Res.bind_ok]
  rcases F.step s with ⟨_ | v, s'⟩ <;> rfl

/-- The loop does the same with the client's trees as with the list of their visits, if these are all or more than it can take. -/
theorem fillLoop_same {F : Foreign ι κ δ} (f : Nat → δ → α) (v : Nat) : ∀ (k : Nat) {s s' : List ι} {xs : List (δ × Size)}, Gives F s xs s' →
    (F.step s').1 = none ∨ k ≤ xs.length → ∀ (i par child remains : Nat) (h : Heap α),
    Same (fillLoop (mapNext f (splittedNext F.src)) v k (s, i) par child remains h) (fillLoop listNext v k (mapped f i xs, none) par child remains h) := by
  intro k
  induction k with
  | zero => intro s s' xs _ _ i par child remains h; exact .inr ⟨.fuel, h, rfl, rfl⟩
  | succ k ih =>
    intro s s' xs hg hd i par child remains h
    cases hg with
    | nil =>
      have hd : (F.step s).1 = none := by simpa using hd
      have e : F.step s = (none, (F.step s).2) := by rw [← hd]
      refine .inl ⟨((F.step s).2, i), ([], none), h, ?_, rfl⟩
      rw [fillLoop, M.bind_apply, mapNext_eq, e]
      rfl
    | @cons _ s1 _ w xs e1 hg =>
      have e2 : mapNext f (splittedNext F.src) (s, i) h = .ok (some (f i w.1, w.2), (s1, i + 1)) h := by rw [mapNext_eq, e1]
      have e3 : listNext ((f i w.1, w.2) :: mapped f (i + 1) xs, none) h = .ok (some (f i w.1, w.2), (mapped f (i + 1) xs, none)) h := rfl
      rw [fillLoop, fillLoop, mapped_cons, M.bind_apply, M.bind_apply, e2, e3, Res.bind_ok, Res.bind_ok]
      have hd' : (F.step s').1 = none ∨ k ≤ xs.length := hd.imp id (by simp)
      show Same (Res.bind (appendChild v par child (f i w.1) w.2 h) _) (Res.bind (appendChild v par child (f i w.1) w.2 h) _)
      refine Same.bindEq fun _ h => ?_
      by_cases h0 : remains = 0
      · rw [if_pos h0, if_pos h0]; exact .inr ⟨.panic, h, rfl, rfl⟩
      · rw [if_neg h0, if_neg h0]
        by_cases h1 : remains - 1 = 0
        · rw [if_pos h1, if_pos h1]
          show Same (Res.bind (fillInner v (child + 1) par child h) _) (Res.bind (fillInner v (child + 1) par child h) _)
          exact Same.bindEq fun _ h => ih hg hd' _ _ _ _ _
        · rw [if_neg h1, if_neg h1]
          exact ih hg hd' _ _ _ _ _

theorem Same.tree {β γ : Type} {r : Res (Heap α) β} {q : Res (Heap α) γ} (h : Same r q) {δ' : Type} {g : β → Heap α → Res (Heap α) δ'} {g' : γ → Heap α → Res (Heap α) δ'}
    (hg : ∀ b c h, g b h = g' c h) : r.bind g = q.bind g' := by
  rcases h with ⟨b, c, h, rfl, rfl⟩ | ⟨e, h, rfl, rfl⟩
  · exact hg b c h
  · rfl

/-- In the list, what is left after the loop is nothing. -/
theorem fillLoop_list (v : Nat) : ∀ (k : Nat) (xs : List (α × Size)) (par child remains : Nat) (h h' : Heap α) (s : List (α × Size) × Option Nat),
    fillLoop listNext v k (xs, none) par child remains h = .ok s h' → s = ([], none) := by
  intro k
  induction k with
  | zero => intro xs par child remains h h' s e; simp [fillLoop, M.throw] at e
  | succ k ih =>
    intro xs par child remains h h' s e
    cases xs with
    | nil =>
      rw [fillLoop] at e
      obtain ⟨rfl, -⟩ := Res.ok.inj (show Res.ok ([], none) h = .ok s h' from e)
      rfl
    | cons w xs =>
      rw [fillLoop] at e
      obtain ⟨_, h1, -, e⟩ : ∃ a h1, appendChild v par child w.1 w.2 h = .ok a h1 ∧ (if remains = 0 then (M.throw .panic : M α _)
        else if remains - 1 = 0 then do
          let (par', remains') ← fillInner v (child + 1) par child
          fillLoop listNext v k (xs, none) par' (child + 1) remains'
        else fillLoop listNext v k (xs, none) par (child + 1) (remains - 1)) h1 = .ok s h' := by
        have e : Res.bind (appendChild v par child w.1 w.2 h) _ = _ := e
        cases ha : appendChild v par child w.1 w.2 h with
        | err _ _ => rw [ha] at e; cases e
        | ok a h1 => rw [ha] at e; exact ⟨a, h1, rfl, e⟩
      by_cases h0 : remains = 0
      · rw [if_pos h0] at e; cases e
      · rw [if_neg h0] at e
        by_cases h2 : remains - 1 = 0
        · rw [if_pos h2] at e
          have e : Res.bind (fillInner v (child + 1) par child h1) _ = _ := e
          cases ha : fillInner v (child + 1) par child h1 with
          | err _ _ => rw [ha] at e; cases e
          | ok a h3 => rw [ha] at e; exact ih _ _ _ _ _ _ _ e
        · rw [if_neg h2] at e
          exact ih _ _ _ _ _ _ _ e

theorem treeOf_same {F : Foreign ι κ δ} (f : Nat → δ → α) {s s' : List ι} {xs : List (δ × Size)} (hg : Gives F s xs s')
    (hd : (F.step s').1 = none ∨ ∃ v ys, xs = v :: ys ∧ v.2.descendants < ys.length) (sz : Size) (h : Heap α) :
    treeOfForeign F f ⟨s, sz⟩ h = treeOfVisits (mapped f 0 xs) none h := by
  rw [treeOfForeign, treeOfVisits, treeFromBfs, treeFromBfs]
  cases hg with
  | nil =>
    have hd : (F.step s).1 = none := by simpa using hd
    have e : F.step s = (none, (F.step s).2) := by rw [← hd]
    rw [M.bind_apply, mapNext_eq, e]
    rfl
  | @cons _ s1 _ w xs e1 hg =>
    have hd : (F.step s').1 = none ∨ w.2.descendants + 1 ≤ xs.length := by
      refine hd.imp id ?_
      rintro ⟨v, ys, e, hl⟩
      obtain ⟨rfl, rfl⟩ := List.cons.inj e
      exact hl
    rw [mapped_cons]
    have e3 : listNext ((f 0 w.1, w.2) :: mapped f (0 + 1) xs, none) h = .ok (some (f 0 w.1, w.2), (mapped f 1 xs, none)) h := rfl
    simp only [M.bind_apply, mapNext_eq, e1, e3, Res.bind_ok, unwrap, M.pure_apply]
    congr 1
    funext v h1
    congr 1
    funext _ h2
    rcases fillLoop_same f v (w.2.descendants + 1) hg hd 1 0 1 w.2.degree h2 with ⟨b, c, h3, q1, q2⟩ | ⟨e, h3, q1, q2⟩
    · have hc := fillLoop_list _ _ _ _ _ _ _ _ _ q2
      rw [q1, q2, hc]; rfl
    · rw [q1, q2]; rfl

theorem forestOf_same {F : Foreign ι κ δ} (f : Nat → δ → α) {s s' : List ι} {xs : List (δ × Size)} {sz : Size} (hg : Gives F s xs s')
    (hd : (F.step s').1 = none ∨ sz.descendants < xs.length) (h : Heap α) :
    forestOfForeign F f ⟨s, sz⟩ h = forestOfVisits (mapped f 0 xs) sz none h := by
  rw [forestOfForeign, forestOfVisits, forestFromBfs, forestFromBfs]
  simp only [M.bind_apply]
  congr 1
  funext v h1
  congr 1
  funext _ h2
  rcases fillLoop_same f v (sz.descendants + 1) hg hd 0 0 1 sz.degree h2 with ⟨b, c, h3, q1, q2⟩ | ⟨e, h3, q1, q2⟩
  · have hc := fillLoop_list _ _ _ _ _ _ _ _ _ q2
    rw [q1, q2, hc]; rfl
  · rw [q1, q2]; rfl

end Foreign
end Trees
