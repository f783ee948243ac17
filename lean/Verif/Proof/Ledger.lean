import Verif.Spec.Ledger
import Verif.Props.CrashDrop
import Batteries.Data.List.Perm
import Mathlib.Data.List.Perm.Subperm
/-
Counting data items before and after every call (used for C52).
-/
namespace Trees
set_option linter.unusedSimpArgs false
set_option linter.unusedSectionVars false
variable {α : Type}
open RTree

namespace Ledger
open Classical

/-- Occurrences of an item. -/
noncomputable def cn (a : α) (l : List α) : Nat := l.count a

section
variable (a : α)

@[simp] theorem cn_nil : cn a [] = 0 := rfl
@[simp] theorem cn_append (l l' : List α) : cn a (l ++ l') = cn a l + cn a l' := List.count_append ..
theorem cn_cons (b : α) (l : List α) : cn a (b :: l) = cn a [b] + cn a l := by rw [← cn_append]; rfl
theorem cn_perm {l l' : List α} (h : l.Perm l') : cn a l = cn a l' := h.count_eq a

/-- Occurrences in trees. -/
noncomputable def ct (t : RTree α) : Nat := cn a t.post
noncomputable def cl (ts : List (RTree α)) : Nat := cn a (postL ts)

@[simp] theorem cl_nil : cl a [] = 0 := rfl
@[simp] theorem cl_cons (t : RTree α) (ts : List (RTree α)) : cl a (t :: ts) = ct a t + cl a ts := by simp [cl, ct]
@[simp] theorem cl_append (ts us : List (RTree α)) : cl a (ts ++ us) = cl a ts + cl a us := by simp [cl]
@[simp] theorem ct_node (d : α) (ts : List (RTree α)) : ct a (.node d ts) = cl a ts + cn a [d] := by simp [cl, ct]
theorem ct_eta (t : RTree α) : ct a t = cl a t.kids + cn a [t.data] := by cases t; simp

theorem cl_set : ∀ (ts : List (RTree α)) (i : Nat) (t u : RTree α), ts[i]? = some t → cl a (ts.set i u) + ct a t = cl a ts + ct a u := by
  intro ts
  induction ts with
  | nil => intro i t u h; simp at h
  | cons s ts ih =>
    intro i t u h
    cases i with
    | zero => simp at h; subst h; simp; omega
    | succ i => have := ih i t u (by simpa using h); simp; omega

theorem cl_erase : ∀ (ts : List (RTree α)) (i : Nat) (t : RTree α), ts[i]? = some t → cl a (ts.eraseIdx i) + ct a t = cl a ts := by
  intro ts
  induction ts with
  | nil => intro i t h; simp at h
  | cons s ts ih =>
    intro i t h
    cases i with
    | zero => simp at h; subst h; simp; omega
    | succ i => have := ih i t (by simpa using h); simp; omega

theorem cl_insert (ts : List (RTree α)) (i : Nat) (t : RTree α) : cl a (insertAt ts i t) = cl a ts + ct a t := by
  have : cl a ts = cl a (ts.take i) + cl a (ts.drop i) := by rw [← cl_append, List.take_append_drop]
  simp [insertAt]; omega

theorem cl_mod {f : List (RTree α) → List (RTree α)} : ∀ (p : Path) (ts us : List (RTree α)), kidsAt ts p = some us →
    cl a (modKids ts p f) + cl a us = cl a ts + cl a (f us) := by
  intro p
  induction p with
  | nil => intro ts us h; simp [kidsAt] at h; subst h; simp [modKids]; omega
  | cons i p ih =>
    intro ts us h
    simp only [kidsAt] at h
    cases e : ts[i]? with
    | none => simp [e] at h
    | some t =>
      simp only [e] at h
      have h1 := ih t.kids us h
      have h2 := cl_set a ts i t (.node t.data (modKids t.kids p f)) e
      simp only [modKids, e]
      rw [ct_node, ct_eta a t] at h2
      omega

/-- Occurrences in a value. -/
noncomputable def cv (v : Val α) : Nat := cn a v.post

theorem cv_tree (t : RTree α) : cv a (.tree t) = ct a t := rfl
theorem cv_forest (t : List (RTree α)) : cv a (.forest t) = cl a t := rfl
theorem cv_iter (t : List (RTree α)) : cv a (.iter t) = cl a t := rfl

theorem cv_setKids (v : Val α) (p : Path) (us : List (RTree α)) (f : List (RTree α) → List (RTree α)) (h : kidsAt v.kids p = some us) :
    cv a (v.setKids (modKids v.kids p f)) + cl a us = cv a v + cl a (f us) := by
  have := cl_mod a (f := f) p _ _ h
  cases v with
  | tree t => simp only [Val.setKids, cv_tree, ct_node, Val.kids] at *; rw [ct_eta a t]; omega
  | forest ts => exact this
  | iter ts => exact this

/-- Occurrences in an optional value. -/
noncomputable def co (o : Option (Val α)) : Nat := cn a ((o.map Val.post).getD [])

@[simp] theorem co_none : co a (none : Option (Val α)) = 0 := rfl
@[simp] theorem co_some (v : Val α) : co a (some v) = cv a v := rfl

noncomputable def ch (s : Store α) : Nat := cn a s.held

theorem cn_flatMap_range (n : Nat) (f : Nat → List α) : cn a ((List.range (n + 1)).flatMap f) = cn a ((List.range n).flatMap f) + cn a (f n) := by
  simp [List.range_succ]

theorem ch_bind (s : Store α) (v : Val α) : ch a (s.bind v) = ch a s + cv a v := by
  simp only [ch, Store.held, Store.bind, cn_flatMap_range]
  congr 1
  · have : ∀ n ≤ s.fresh, (List.range n).flatMap (fun x => (((if x = s.fresh then some v else s.vars x)).map Val.post).getD []) =
      (List.range n).flatMap fun x => ((s.vars x).map Val.post).getD [] := by
      intro n
      induction n with
      | zero => intro _; rfl
      | succ n ih =>
        intro h
        rw [List.range_succ, List.flatMap_append, List.flatMap_append, ih (by omega)]
        have : n ≠ s.fresh := by omega
        simp [this]
    rw [this _ (Nat.le_refl _)]

theorem ch_set (s : Store α) (x : Nat) (o : Option (Val α)) (hx : x < s.fresh) : ch a (s.set x o) + co a (s.vars x) = ch a s + co a o := by
  simp only [ch, Store.held, Store.set]
  have key : ∀ n, cn a ((List.range n).flatMap fun z => ((if z = x then o else s.vars z).map Val.post).getD []) + (if x < n then co a (s.vars x) else 0) =
      cn a ((List.range n).flatMap fun z => ((s.vars z).map Val.post).getD []) + (if x < n then co a o else 0) := by
    intro n
    induction n with
    | zero => simp
    | succ n ih =>
      rw [cn_flatMap_range, cn_flatMap_range]
      by_cases h : n = x
      · subst h
        simp only [Nat.lt_irrefl, if_false, Nat.add_zero] at ih
        simp [co]; omega
      · rcases Nat.lt_or_ge x n with h2 | h2
        · have h3 : x < n + 1 := by omega
          simp only [h2, h3, h, if_true, if_false] at ih ⊢; omega
        · have h3 : ¬ x < n + 1 := by intro h4; exact h (by omega)
          have h4 : ¬ x < n := by omega
          simp only [h3, h4, h, if_false] at ih ⊢; omega
  have := key s.fresh
  simpa [hx] using this

theorem ch_drop (s : Store α) (ds : List α) : ch a (s.drop ds) = ch a s := rfl

theorem ch_setKids {s : Store α} {x : Nat} {v : Val α} {p : Path} {us : List (RTree α)} (hx : s.vars x = some v) (hf : x < s.fresh)
    (hp : kidsAt v.kids p = some us) (f : List (RTree α) → List (RTree α)) : ch a (s.setKids x v p f) + cl a us = ch a s + cl a (f us) := by
  have h1 := ch_set a s x (some (v.setKids (modKids v.kids p f))) hf
  have h2 := cv_setKids a v p us f hp
  simp only [hx, co_some, Store.setKids] at h1 ⊢
  omega

theorem cl_pre (ts : List (RTree α)) : cl a ts = cn a (preL ts) := cn_perm a (postL_perm_preL ts)
theorem ct_pre (t : RTree α) : ct a t = cn a t.pre := cn_perm a (post_perm_pre t)

theorem cl_level (ts : List (RTree α)) : cl a ts = cn a ((levelOrder ts).map data) := by
  rw [cl_pre, ← cn_perm a (levelOrder_once ts).2.2.2]

theorem level_visits (ts : List (RTree α)) : (levelOrder ts).map data = (visits ts).map Prod.fst := by
  rw [levelOrder_eq, visits, List.map_map]; rfl

theorem mapIdx_take (xs : List α) (k : Nat) (f : Nat → α → α) :
    xs.mapIdx (first k f) = (xs.take k).mapIdx f ++ xs.drop k := by
  apply List.ext_getElem?
  intro i
  rw [List.getElem?_append]
  simp only [List.getElem?_mapIdx, List.length_mapIdx, List.length_take, List.getElem?_take, List.getElem?_drop]
  by_cases h : i < min k xs.length
  · have h1 : i < k := by omega
    simp only [if_pos h, if_pos h1]
    cases xs[i]? <;> simp [first, h1]
  · rw [if_neg h]
    by_cases h2 : i < k
    · have h3 : xs.length ≤ i := by omega
      rw [List.getElem?_eq_none h3, List.getElem?_eq_none (by omega)]; rfl
    · have h4 : k + (i - min k xs.length) = i ∨ xs.length ≤ i := by omega
      rcases h4 with h4 | h4
      · rw [h4]; cases xs[i]? <;> simp [first, h2]
      · rw [List.getElem?_eq_none h4, List.getElem?_eq_none (by omega)]; rfl

theorem cl_of_visits {ts us : List (RTree α)} {f : Nat → α → α} (h : visits us = (visits ts).mapIdx (fun i v => (f i v.1, v.2))) :
    cl a us = cn a (((levelOrder ts).map data).mapIdx f) := by
  rw [cl_level, level_visits, level_visits, h]
  congr 1
  apply List.ext_getElem?
  intro i
  simp only [List.getElem?_map, List.getElem?_mapIdx, Option.map_map]
  rfl

theorem cl_updL (f : Nat → α → α) (ts : List (RTree α)) : cl a (updLevelL f ts) = cn a (((levelOrder ts).map data).mapIdx f) :=
  cl_of_visits a (visits_updLevelL f ts)

theorem cl_upd (f : Nat → α → α) (t : RTree α) : ct a (updLevel f t) = cn a (((levelOrder [t]).map data).mapIdx f) := by
  have := cl_of_visits a (visits_updLevel f t)
  simpa using this

theorem madeFrom_eq (ts : Option (List (RTree α))) (k : Nat) (f : Nat → α → α) :
    madeFrom ts k f = (((levelOrder (ts.getD [])).map data).take k).mapIdx f := by
  rw [← List.map_take, madeFrom]
  apply List.ext_getElem?
  intro i
  simp only [List.getElem?_map, List.getElem?_mapIdx, Option.map_map]
  rfl

theorem madeFrom_all (ts : List (RTree α)) (f : Nat → α → α) : madeFrom (some ts) (countOf (some ts)) f = ((levelOrder ts).map data).mapIdx f := by
  rw [madeFrom_eq, List.take_of_length_le]
  · rfl
  · simp [countOf, (levelOrder_once ts).1]

theorem takenFrom_eq (ts : Option (List (RTree α))) (k : Nat) : takenFrom ts k = ((levelOrder (ts.getD [])).map data).take k := by
  rw [← List.map_take, takenFrom]

theorem takenFrom_all (ts : List (RTree α)) : takenFrom (some ts) (countOf (some ts)) = (levelOrder ts).map data := by
  rw [takenFrom_eq, List.take_of_length_le]
  · rfl
  · simp [countOf, (levelOrder_once ts).1]

theorem upd_first {ts us : List (RTree α)} {k : Nat} {f : Nat → α → α} (h : cl a us = cn a (((levelOrder ts).map data).mapIdx (first k f))) :
    cl a us + cn a (takenFrom (some ts) k) = cl a ts + cn a (madeFrom (some ts) k f) := by
  rw [h, mapIdx_take, madeFrom_eq, takenFrom_eq, cl_level, cn_append, Option.getD_some]
  have : cn a ((levelOrder ts).map data) = cn a (((levelOrder ts).map data).take k) + cn a (((levelOrder ts).map data).drop k) := by
    rw [← cn_append, List.take_append_drop]
  omega


theorem unvisited_le {j : Option Nat} {ts : List (RTree α)} {ds : List α} (h : unvisited j ts = some ds) :
    cn a ds ≤ cn a ((levelOrder ts).map data) := by
  simp only [unvisited, Option.bind_eq_some_iff] at h
  obtain ⟨n, -, h⟩ := h
  split at h
  · cases h
    rw [List.map_drop]
    exact (List.drop_sublist _ _).count_le a
  · simp at h

end

section
variable {s : Store α} (hfr : ∀ z, s.fresh ≤ z → s.vars z = none)

/-- The balance of a call. -/
def Bal (s : Store α) (B T : List α) (s' : Store α) : Prop :=
  ∀ a, ch a s' + cn a s'.dropped + cn a T = ch a s + cn a s.dropped + cn a B

def BalO (s : Store α) (B T : List α) : Outcome (Store α) α → Prop
  | .ok s' _ => Bal s B T s'
  | .panic s' => Bal s B T s'
  | _ => True

theorem Bal.same : Bal s [] [] s := fun _ => rfl

theorem bal_kids {B T : List α} {x : Var} {p : Path} {k : Val α → List (RTree α) → Outcome (Store α) α}
    (h1 : s.kidsAt? x p = none → B = [] ∧ T = [])
    (h2 : ∀ v us, s.vars x = some v → v.isIter = false → kidsAt v.kids p = some us → s.kidsAt? x p = some us → BalO s B T (k v us)) :
    BalO s B T (s.onKids x p k) := by
  unfold Store.onKids
  split
  · trivial
  · rename_i v hx
    split
    · trivial
    · rename_i hi
      have hi : v.isIter = false := by simpa using hi
      have e : s.kidsAt? x p = kidsAt v.kids p := by simp [Store.kidsAt?, hx, hi]
      split
      · rename_i hk
        obtain ⟨rfl, rfl⟩ := h1 (by rw [e, hk])
        exact Bal.same
      · rename_i us hk
        exact h2 v us hx hi hk (by rw [e, hk])

theorem bal_node {B T : List α} {x : Var} {l : Loc} {r : Val α → RTree α → Outcome (Store α) α}
    {k : Val α → Path → Nat → List (RTree α) → RTree α → Outcome (Store α) α}
    (h1 : s.nodeAt? x l = none → B = [] ∧ T = [])
    (h2 : ∀ t, l = .root → s.vars x = some (.tree t) → s.nodeAt? x l = some t → BalO s B T (r (.tree t) t))
    (h3 : ∀ v q i us t, l = .child q i → s.vars x = some v → v.isIter = false → kidsAt v.kids q = some us → us[i]? = some t →
      s.nodeAt? x l = some t → BalO s B T (k v q i us t)) :
    BalO s B T (s.onNode x l r k) := by
  unfold Store.onNode
  split
  · trivial
  · rename_i v hx
    split
    · trivial
    · rename_i hi
      have hi : v.isIter = false := by simpa using hi
      have e : s.nodeAt? x l = v.at? l := by simp [Store.nodeAt?, hx, hi]
      cases l with
      | root =>
        cases v with
        | tree t => exact h2 t rfl hx (by rw [e]; rfl)
        | forest ts => trivial
        | iter ts => trivial
      | child q i =>
        simp only
        have e2 : v.at? (.child q i) = (kidsAt v.kids q).bind (·[i]?) := rfl
        split
        · rename_i hk
          obtain ⟨rfl, rfl⟩ := h1 (by rw [e, e2, hk]; rfl)
          exact Bal.same
        · rename_i us hk
          split
          · rename_i ht
            obtain ⟨rfl, rfl⟩ := h1 (by rw [e, e2, hk]; exact ht)
            exact Bal.same
          · rename_i t ht
            exact h3 v q i us t rfl hx hi hk ht (by rw [e, e2, hk]; exact ht)

theorem bal_tree {B T : List α} {x y : Var} {k : RTree α → Outcome (Store α) α}
    (h : ∀ t, x ≠ y → s.vars y = some (.tree t) → BalO s B T (k t)) : BalO s B T (s.takeTree x y k) := by
  unfold Store.takeTree
  split
  · trivial
  · rename_i hne
    split
    · rename_i t hy; exact h t hne hy
    · trivial

theorem bal_forest {B T : List α} {x y : Var} {k : List (RTree α) → Outcome (Store α) α}
    (h : ∀ t, x ≠ y → s.vars y = some (.forest t) → BalO s B T (k t)) : BalO s B T (s.takeForest x y k) := by
  unfold Store.takeForest
  split
  · trivial
  · rename_i hne
    split
    · rename_i t hy; exact h t hne hy
    · trivial

include hfr

theorem lt_fresh {x : Nat} {v : Val α} (h : s.vars x = some v) : x < s.fresh := by
  rcases Nat.lt_or_ge x s.fresh with h1 | h1
  · exact h1
  · rw [hfr x h1] at h; simp at h

/-- A value moved into a child list. -/
theorem bal_into {x y : Var} {v w : Val α} {p : Path} {us : List (RTree α)} {o : Out α} (hne : x ≠ y) (hx : s.vars x = some v) (hy : s.vars y = some w)
    (hp : kidsAt v.kids p = some us) (f : List (RTree α) → List (RTree α)) (hf : ∀ a, cl a (f us) = cl a us + cv a w) :
    BalO s [] [] (.ok ((s.set y none).setKids x v p f) o) := by
  intro a
  have h1 := ch_set a s y none (lt_fresh hfr hy)
  have hx' : (s.set y none).vars x = some v := by simp [Store.set, hne, hx]
  have h2 := ch_setKids a hx' (show x < (s.set y none).fresh from lt_fresh hfr hx) hp f
  have h3 := hf a
  have h4 : ((s.set y none).setKids x v p f).dropped = s.dropped := rfl
  simp only [hy, co_some, co_none] at h1
  rw [h4]
  simp only [cn_nil]
  omega

/-- A subtree moved out of a child list. -/
theorem bal_out {x : Var} {v : Val α} {p : Path} {us : List (RTree α)} {t : RTree α} {o : Out α} (hx : s.vars x = some v)
    (hp : kidsAt v.kids p = some us) (f : List (RTree α) → List (RTree α)) (hf : ∀ a, cl a (f us) + ct a t = cl a us) :
    BalO s [] [] (.ok ((s.setKids x v p f).bind (.tree t)) o) := by
  intro a
  have h2 := ch_setKids a hx (lt_fresh hfr hx) hp f
  have h3 := hf a
  have h4 : ((s.setKids x v p f).bind (.tree t)).dropped = s.dropped := rfl
  have h5 := ch_bind a (s.setKids x v p f) (.tree t)
  rw [h4, h5, cv_tree]
  simp only [cn_nil]
  omega

/-- An update of a value. -/
theorem bal_put {x : Var} {v w : Val α} {B T : List α} {o : Out α} (hx : s.vars x = some v) (hw : ∀ a, cv a w + cn a T = cv a v + cn a B) :
    BalO s B T (.ok (s.set x (some w)) o) := by
  intro a
  have h1 := ch_set a s x (some w) (lt_fresh hfr hx)
  have h2 := hw a
  have h4 : (s.set x (some w)).dropped = s.dropped := rfl
  rw [hx, co_some, co_some] at h1
  rw [h4]
  omega

theorem bal_putKids {x : Var} {v : Val α} {p : Path} {us : List (RTree α)} {B T : List α} {o : Out α} (hx : s.vars x = some v)
    (hp : kidsAt v.kids p = some us) {f : List (RTree α) → List (RTree α)} (hf : ∀ a, cl a (f us) + cn a T = cl a us + cn a B) :
    BalO s B T (.ok (s.setKids x v p f) o) := by
  refine bal_put hfr hx fun a => ?_
  have := cv_setKids a v p us f hp
  have := hf a
  omega

/-- A value that is consumed. -/
theorem bal_gone {x : Var} {v : Val α} {T ds : List α} {o : Out α} (hx : s.vars x = some v) (hd : ∀ a, cn a ds + cn a T = cv a v) :
    BalO s [] T (.ok ((s.set x none).drop ds) o) := by
  intro a
  have h1 := ch_set a s x none (lt_fresh hfr hx)
  have h2 := hd a
  have h4 : ((s.set x none).drop ds).dropped = s.dropped ++ ds := rfl
  rw [hx, co_some, co_none] at h1
  rw [h4, cn_append, ch_drop, cn_nil]
  omega

/-- A value that replaces another one, in a new variable. -/
theorem bal_move {x : Var} {v w : Val α} {B T : List α} {o : Out α} (hx : s.vars x = some v) (hw : ∀ a, cv a w + cn a T = cv a v + cn a B) :
    BalO s B T (.ok ((s.set x none).bind w) o) := by
  intro a
  have h1 := ch_set a s x none (lt_fresh hfr hx)
  have h2 := hw a
  have h4 : ((s.set x none).bind w).dropped = s.dropped := rfl
  rw [hx, co_some, co_none] at h1
  rw [h4, ch_bind]
  omega

omit hfr in
theorem bal_new {w : Val α} {B : List α} {o : Out α} (hw : ∀ a, cv a w = cn a B) : BalO s B [] (.ok (s.bind w) o) := by
  intro a
  have h4 : (s.bind w).dropped = s.dropped := rfl
  rw [h4, ch_bind, hw]
  simp only [cn_nil]
  omega

omit hfr in
theorem bal_read {o : Out α} : BalO s [] [] (.ok s o) := Bal.same

/-- The balance of every call. -/
theorem spec_bal (op : Op α) : BalO s (s.brings op) (s.takes op) (specStep s op) := by
  have lo : levelOrder ([] : List (RTree α)) = [] := rfl
  have rd : ∀ {x : Var} {l : Loc} {o o' : RTree α → Out α}, BalO s [] [] (s.onNode x l (fun _ t => .ok s (o t)) (fun _ _ _ _ t => .ok s (o' t))) :=
    bal_node (fun _ => ⟨rfl, rfl⟩) (fun _ _ _ _ => bal_read) (fun _ _ _ _ _ _ _ _ _ _ _ => bal_read)
  cases op with
  | treeNew d => exact bal_new fun a => by simp [cv, Store.brings, Val.post]
  | forestNew => exact bal_new fun a => by simp [cv, Store.brings, Val.post]
  | pushFront x p y =>
    exact bal_tree fun t hne hy => bal_kids (fun _ => ⟨rfl, rfl⟩) fun v us hx _ hp _ => bal_into hfr hne hx hy hp _ fun a => by simp [cv_tree]; omega
  | pushBack x p y =>
    exact bal_tree fun t hne hy => bal_kids (fun _ => ⟨rfl, rfl⟩) fun v us hx _ hp _ => bal_into hfr hne hx hy hp _ fun a => by simp [cv_tree]
  | prepend x p y =>
    exact bal_forest fun t hne hy => bal_kids (fun _ => ⟨rfl, rfl⟩) fun v us hx _ hp _ => bal_into hfr hne hx hy hp _ fun a => by simp [cv_forest]; omega
  | append x p y =>
    exact bal_forest fun t hne hy => bal_kids (fun _ => ⟨rfl, rfl⟩) fun v us hx _ hp _ => bal_into hfr hne hx hy hp _ fun a => by simp [cv_forest]
  | popFront x p =>
    refine bal_kids (fun _ => ⟨rfl, rfl⟩) fun v us hx _ hp _ => ?_
    cases us with
    | nil => exact bal_read
    | cons t ts => exact bal_out hfr hx hp _ fun a => by simp; omega
  | popBack x p =>
    refine bal_kids (fun _ => ⟨rfl, rfl⟩) fun v us hx _ hp _ => ?_
    cases e : us.getLast? with
    | none => exact bal_read
    | some t =>
      have e2 : us.dropLast ++ [t] = us := List.dropLast_append_getLast? t e
      exact bal_out hfr hx hp _ fun a => by
        have := cl_append a us.dropLast [t]
        rw [e2] at this
        simpa using this.symm
  | insertPrevSib x l y =>
    refine bal_tree fun t hne hy => bal_node (fun _ => ⟨rfl, rfl⟩) ?_ ?_
    · intro u _ _ _; exact bal_gone hfr (T := []) (o := .unit) hy fun a => rfl
    · intro v q i us u _ hx _ hp _ _; exact bal_into hfr hne hx hy hp _ fun a => by rw [cl_insert, cv_tree]
  | insertNextSib x l y =>
    refine bal_tree fun t hne hy => bal_node (fun _ => ⟨rfl, rfl⟩) ?_ ?_
    · intro u _ _ _; exact bal_gone hfr (T := []) (o := .unit) hy fun a => rfl
    · intro v q i us u _ hx _ hp _ _; exact bal_into hfr hne hx hy hp _ fun a => by rw [cl_insert, cv_tree]
  | detach x l =>
    refine bal_node (fun _ => ⟨rfl, rfl⟩) ?_ ?_
    · intro u _ _ _; exact bal_read (o := .unit)
    · intro v q i us u _ hx _ hp hi _; exact bal_out hfr hx hp _ fun a => cl_erase a us i u hi
  | abandon x =>
    simp only [specStep]
    split
    · rename_i t hx
      intro a
      have h1 := ch_set a s x (some (.tree (.node t.data []))) (lt_fresh hfr hx)
      have h5 := ch_bind a (s.set x (some (.tree (.node t.data [])))) (.forest t.kids)
      have h6 := ct_eta a t
      simp only [hx, co_some, cv_tree, ct_node, cl_nil, cv_forest] at h1 h5
      show ch a _ + cn a s.dropped + cn a [] = ch a s + cn a s.dropped + cn a []
      omega
    · trivial
  | setData x l d =>
    refine bal_node (fun h => ?_) ?_ ?_
    · simp [Store.brings, h, Store.takes]
    · intro t _ hx hn a
      have h1 := ch_set a s x (some (.tree (.node d t.kids))) (lt_fresh hfr hx)
      have h6 := ct_eta a t
      simp only [hx, co_some, cv_tree, ct_node] at h1
      simp only [Store.brings, hn, Store.takes, Option.isSome_some, if_true]
      show ch a (s.set x _) + cn a (s.dropped ++ [t.data]) + cn a [] = _
      rw [cn_append, cn_nil]
      omega
    · intro v q i us t _ hx _ hp hi hn a
      have h1 := ch_setKids a hx (lt_fresh hfr hx) hp (fun us => us.set i (.node d t.kids))
      have h2 := cl_set a us i t (.node d t.kids) hi
      have h6 := ct_eta a t
      simp only [Store.brings, hn, Store.takes, Option.isSome_some, if_true]
      show ch a (s.setKids x v q _) + cn a (s.dropped ++ [t.data]) + cn a [] = _
      rw [ct_node] at h2
      rw [cn_append, cn_nil]
      omega
  | drop x =>
    simp only [specStep]
    split
    · rename_i v hx; exact bal_gone hfr (T := []) hx fun a => rfl
    · trivial
  | intoIter x =>
    simp only [specStep]
    split
    · rename_i t hx; exact bal_move hfr (B := []) (T := []) hx fun a => by simp [cv_tree, cv_iter]
    · rename_i t hx; exact bal_move hfr (B := []) (T := []) hx fun a => rfl
    · trivial
  | iterNext x =>
    simp only [specStep]
    split
    · exact bal_read
    · rename_i t ts hx
      intro a
      have h1 := ch_set a s x (some (.iter ts)) (lt_fresh hfr hx)
      have h5 := ch_bind a (s.set x (some (.iter ts))) (.tree t)
      simp only [hx, co_some, cv_tree, cv_iter, cl_cons] at h1 h5
      show ch a _ + cn a s.dropped + cn a [] = ch a s + cn a s.dropped + cn a []
      omega
    · trivial
  | iterLen x =>
    simp only [specStep]
    split
    · exact bal_read
    · trivial
  | data x l => exact rd
  | degree x p => exact bal_kids (fun _ => ⟨rfl, rfl⟩) fun _ _ _ _ _ _ => bal_read
  | nodeCount x p => exact bal_kids (fun _ => ⟨rfl, rfl⟩) fun _ _ _ _ _ _ => bal_read
  | hasNoChild x p => exact bal_kids (fun _ => ⟨rfl, rfl⟩) fun _ _ _ _ _ _ => bal_read
  | childData x p => exact bal_kids (fun _ => ⟨rfl, rfl⟩) fun _ _ _ _ _ _ => bal_read
  | frontData x p => exact bal_kids (fun _ => ⟨rfl, rfl⟩) fun _ _ _ _ _ _ => bal_read
  | backData x p => exact bal_kids (fun _ => ⟨rfl, rfl⟩) fun _ _ _ _ _ _ => bal_read
  | mapBfs x l f =>
    refine bal_node (fun h => ?_) ?_ ?_
    · simp [Store.brings, h, Store.takes, madeFrom, lo]
    · intro t _ hx hn; exact bal_new fun a => by simp only [Store.brings, hn, Option.map_some, madeFrom_all, cv_tree, cl_upd]
    · intro v q i us t _ hx _ hp hi hn; exact bal_new fun a => by simp only [Store.brings, hn, Option.map_some, madeFrom_all, cv_tree, cl_upd]
  | mapBfsForest x p f =>
    refine bal_kids (fun h => ?_) fun v us hx _ hp hn => ?_
    · simp [Store.brings, h, Store.takes, madeFrom, lo]
    · exact bal_new fun a => by simp only [Store.brings, hn, madeFrom_all, cv_forest, cl_updL]
  | rebuild x f =>
    simp only [specStep]
    split
    · rename_i t hx
      have hn : s.treesAt? x = some [t] := by simp [Store.treesAt?, hx]
      refine bal_move hfr hx fun a => ?_
      simp only [Store.brings, Store.takes, hn, madeFrom_all, takenFrom_all, cv_tree, cl_upd]
      have := cl_level a [t]
      simp only [cl_cons, cl_nil] at this
      omega
    · rename_i ts hx
      have hn : s.treesAt? x = some ts := by simp [Store.treesAt?, hx]
      refine bal_move hfr hx fun a => ?_
      simp only [Store.brings, Store.takes, hn, madeFrom_all, takenFrom_all, cv_forest, cl_updL]
      have := cl_level a ts
      omega
    · trivial
  | bfs x l k => exact rd
  | bfsChildren x p k => exact bal_kids (fun _ => ⟨rfl, rfl⟩) fun _ _ _ _ _ _ => bal_read
  | intoBfs x k =>
    simp only [specStep]
    split
    · rename_i t hx
      have hn : s.treesAt? x = some [t] := by simp [Store.treesAt?, hx]
      refine bal_gone hfr hx fun a => ?_
      have := cn_perm a (bfs_conserve k [t])
      rw [← cl_pre] at this
      simp only [cn_append, cl_cons, cl_nil] at this
      simp only [Store.takes, hn, takenFrom, Option.getD_some, cv_tree]
      omega
    · rename_i ts hx
      have hn : s.treesAt? x = some ts := by simp [Store.treesAt?, hx]
      refine bal_gone hfr hx fun a => ?_
      have := cn_perm a (bfs_conserve k ts)
      rw [← cl_pre] at this
      simp only [cn_append] at this
      simp only [Store.takes, hn, takenFrom, Option.getD_some, cv_forest]
      omega
    · trivial
  | bfsMut x l k f =>
    refine bal_node (fun h => ?_) ?_ ?_
    · simp [Store.brings, h, Store.takes, madeFrom, takenFrom, lo]
    · intro t _ hx hn
      refine bal_put hfr hx fun a => ?_
      have := upd_first a (ts := [t]) (us := [updLevel (first k f) t]) (k := k) (f := f) (by simpa using cl_upd a (first k f) t)
      simp only [Store.brings, Store.takes, hn, Option.map_some, cv_tree]
      simpa using this
    · intro v q i us t _ hx _ hp hi hn
      refine bal_putKids hfr hx hp fun a => ?_
      have := upd_first a (ts := [t]) (us := [updLevel (first k f) t]) (k := k) (f := f) (by simpa using cl_upd a (first k f) t)
      have h2 := cl_set a us i t (updLevel (first k f) t) hi
      simp only [Store.brings, Store.takes, hn, Option.map_some]
      simp at this
      omega
  | bfsChildrenMut x p k f =>
    refine bal_kids (fun h => ?_) fun v us hx _ hp hn => ?_
    · simp [Store.brings, h, Store.takes, madeFrom, takenFrom, lo]
    · refine bal_putKids hfr hx hp fun a => ?_
      simp only [Store.brings, Store.takes, hn]
      exact upd_first a (cl_updL a _ _)
  | treeFromTuple t =>
    simp only [specStep]
    split
    · rename_i h; exact bal_new fun a => by simp only [Store.brings, if_pos h, cv_tree, ct_pre]
    · trivial
  | forestFromTuple ts =>
    simp only [specStep]
    split
    · rename_i h; exact bal_new fun a => by simp only [Store.brings, if_pos h, cv_forest, cl_pre]
    · trivial


omit hfr in
/-- The balance of a call in which user code may panic: items may be leaked. -/
def BalLe (s : Store α) (B T : List α) : Outcome (Store α) α → Prop
  | .ok s' _ => ∀ a, ch a s' + cn a s'.dropped + cn a T ≤ ch a s + cn a s.dropped + cn a B
  | .panic s' => ∀ a, ch a s' + cn a s'.dropped + cn a T ≤ ch a s + cn a s.dropped + cn a B
  | _ => True

omit hfr in
theorem BalO.le {B T : List α} {o : Outcome (Store α) α} (h : BalO s B T o) : BalLe s B T o := by
  cases o with
  | ok s' o => exact fun a => Nat.le_of_eq (h a)
  | panic s' => exact fun a => Nat.le_of_eq (h a)
  | rejected => trivial
  | bad => trivial

omit hfr in
theorem BalLe.more {B T : List α} {o : Outcome (Store α) α} (h : BalLe s [] T o) : BalLe s B T o := by
  cases o with
  | ok s' o => intro a; have := h a; simp only [cn_nil] at this; omega
  | panic s' => intro a; have := h a; simp only [cn_nil] at this; omega
  | rejected => trivial
  | bad => trivial

omit hfr in
theorem BalO.to_panic {B T : List α} {s' : Store α} {o : Out α} (h : BalO s B T (.ok s' o)) : BalO s B T (.panic s') := h

omit hfr in
theorem okCalls_none {f : Nat → α → Option α} {ts : List (RTree α)} (h : firstPanic f ts = none) : okCalls f (some ts) = countOf (some ts) := by
  simp [okCalls, h]

omit hfr in
theorem okCalls_some {f : Nat → α → Option α} {ts : List (RTree α)} {n : Nat} (h : firstPanic f ts = some n) : okCalls f (some ts) = n := by
  simp [okCalls, h]

omit hfr in
theorem le_kids {B T : List α} {x : Var} {p : Path} {k : Val α → List (RTree α) → Outcome (Store α) α}
    (h1 : s.kidsAt? x p = none → B = [] ∧ T = [])
    (h2 : ∀ v us, s.vars x = some v → v.isIter = false → kidsAt v.kids p = some us → s.kidsAt? x p = some us → BalLe s B T (k v us)) :
    BalLe s B T (s.onKids x p k) := by
  unfold Store.onKids
  split
  · trivial
  · rename_i v hx
    split
    · trivial
    · rename_i hi
      have hi : v.isIter = false := by simpa using hi
      have e : s.kidsAt? x p = kidsAt v.kids p := by simp [Store.kidsAt?, hx, hi]
      split
      · rename_i hk
        obtain ⟨rfl, rfl⟩ := h1 (by rw [e, hk])
        exact fun _ => Nat.le_refl _
      · rename_i us hk
        exact h2 v us hx hi hk (by rw [e, hk])

omit hfr in
theorem le_node {B T : List α} {x : Var} {l : Loc} {r : RTree α → Outcome (Store α) α}
    (h1 : s.nodeAt? x l = none → B = [] ∧ T = [])
    (h2 : ∀ t, s.nodeAt? x l = some t → BalLe s B T (r t)) :
    BalLe s B T (s.onNode x l (fun _ t => r t) (fun _ _ _ _ t => r t)) := by
  unfold Store.onNode
  split
  · trivial
  · rename_i v hx
    split
    · trivial
    · rename_i hi
      have hi : v.isIter = false := by simpa using hi
      have e : s.nodeAt? x l = v.at? l := by simp [Store.nodeAt?, hx, hi]
      cases l with
      | root =>
        cases v with
        | tree t => exact h2 t (by rw [e]; rfl)
        | forest ts => trivial
        | iter ts => trivial
      | child q i =>
        simp only
        have e2 : v.at? (.child q i) = (kidsAt v.kids q).bind (·[i]?) := rfl
        split
        · rename_i hk
          obtain ⟨rfl, rfl⟩ := h1 (by rw [e, e2, hk]; rfl)
          exact fun _ => Nat.le_refl _
        · rename_i us hk
          split
          · rename_i ht
            obtain ⟨rfl, rfl⟩ := h1 (by rw [e, e2, hk]; exact ht)
            exact fun _ => Nat.le_refl _
          · rename_i t ht
            exact h2 t (by rw [e, e2, hk]; exact ht)

/-- The balance of every call, user code that panics included. -/
theorem spec_le (op : COp α) : BalLe s (s.bringsC op) (s.takesC op) (specCrash s op) := by
  have lo : levelOrder ([] : List (RTree α)) = [] := rfl
  have same : ∀ {B : List α}, BalLe s B [] (.panic s) := by intro B a; simp only [cn_nil]; omega
  cases op with
  | call op => exact (spec_bal hfr op).le
  | mapBfs x l f =>
    refine le_node (fun h => ?_) fun t hn => ?_
    · simp [Store.bringsC, h, Store.takesC, madeFrom, lo]
    · cases hp : firstPanic f [t] with
      | none =>
        refine (bal_new fun a => ?_).le
        simp only [Store.bringsC, hn, Option.map_some, okCalls_none hp, madeFrom_all, cv_tree, cl_upd]
      | some n => exact same
  | mapBfsForest x p f =>
    refine le_kids (fun h => ?_) fun v us hx _ hp hn => ?_
    · simp [Store.bringsC, h, Store.takesC, madeFrom, lo]
    · cases hp : firstPanic f us with
      | none =>
        refine (bal_new fun a => ?_).le
        simp only [Store.bringsC, hn, okCalls_none hp, madeFrom_all, cv_forest, cl_updL]
      | some n => exact same
  | rebuild x f =>
    simp only [specCrash]
    split
    · rename_i t hx
      have hn : s.treesAt? x = some [t] := by simp [Store.treesAt?, hx]
      cases hp : firstPanic f [t] with
      | none =>
        refine (bal_move hfr hx fun a => ?_).le
        simp only [Store.bringsC, Store.takesC, hn, okCalls_none hp, madeFrom_all, takenFrom_all, cv_tree, cl_upd]
        have := cl_level a [t]
        simp only [cl_cons, cl_nil] at this
        omega
      | some n =>
        refine BalLe.more (BalO.le (BalO.to_panic (o := .unit) (bal_gone hfr hx fun a => ?_)))
        have := cn_perm a (unwound_conserve hp)
        rw [← cl_pre] at this
        simp only [cn_append, cl_cons, cl_nil] at this
        simp only [Store.takesC, hn, takenFrom, Option.getD_some, okCalls_some hp, cv_tree]
        omega
    · rename_i ts hx
      have hn : s.treesAt? x = some ts := by simp [Store.treesAt?, hx]
      cases hp : firstPanic f ts with
      | none =>
        refine (bal_move hfr hx fun a => ?_).le
        simp only [Store.bringsC, Store.takesC, hn, okCalls_none hp, madeFrom_all, takenFrom_all, cv_forest, cl_updL]
        have := cl_level a ts
        omega
      | some n =>
        refine BalLe.more (BalO.le (BalO.to_panic (o := .unit) (bal_gone hfr hx fun a => ?_)))
        have := cn_perm a (unwound_conserve hp)
        rw [← cl_pre] at this
        simp only [cn_append] at this
        simp only [Store.takesC, hn, takenFrom, Option.getD_some, okCalls_some hp, cv_forest]
        omega
    · trivial
  | ofVisits t j =>
    simp only [specCrash]
    split
    · exact (bal_new fun a => by simp only [Store.bringsC, cv_tree, ct_pre]).le
    · rename_i ds h
      intro a
      show ch a s + cn a (s.dropped ++ ds) + cn a [] ≤ ch a s + cn a s.dropped + cn a t.pre
      have h1 := cl_level a [t]
      have h2 := unvisited_le a h
      rw [cl_cons, cl_nil, ct_pre] at h1
      rw [cn_append, cn_nil]; omega
  | ofVisitsForest ts j =>
    simp only [specCrash]
    split
    · exact (bal_new fun a => by simp only [Store.bringsC, cv_forest, cl_pre]).le
    · rename_i ds h
      intro a
      show ch a s + cn a (s.dropped ++ ds) + cn a [] ≤ ch a s + cn a s.dropped + cn a (preL ts)
      have h1 := cl_level a ts
      have h2 := unvisited_le a h
      rw [cl_pre] at h1
      rw [cn_append, cn_nil]; omega
  | forget x =>
    simp only [specCrash]
    split
    · rename_i v hx
      intro a
      have h1 := ch_set a s x none (lt_fresh hfr hx)
      rw [hx, co_some, co_none] at h1
      show ch a (s.set x none) + cn a s.dropped + cn a [] ≤ ch a s + cn a s.dropped + cn a []
      omega
    · trivial
  | dropPanic x j =>
    simp only [specCrash]
    split
    · rename_i v hx
      split
      · intro a
        have h1 := ch_set a s x none (lt_fresh hfr hx)
        have h2 : cn a (v.postUntil j) ≤ cv a v := (postUntil_sub v j).count_le a
        rw [hx, co_some, co_none] at h1
        show ch a (s.set x none) + cn a (s.dropped ++ v.postUntil j) + cn a [] ≤ ch a s + cn a s.dropped + cn a []
        rw [cn_append]
        omega
      · exact (bal_gone hfr (T := []) hx fun a => rfl).le
    · trivial
  | setDataPanic x l d =>
    have h := spec_bal hfr (.setData x l d)
    simp only [specCrash, Store.bringsC, Store.takesC]
    split
    · rename_i s' e
      rw [e] at h
      exact BalO.le (BalO.to_panic h)
    · exact h.le

end
end Ledger
end Trees
