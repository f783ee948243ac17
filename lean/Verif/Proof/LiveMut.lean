import Verif.Props.Live
import Mathlib.Data.List.Induction
/-
Mutable breadth-first borrows: no two of them lead to the same item.
-/
namespace Trees
set_option linter.unusedSimpArgs false
set_option linter.unusedVariables false
variable {α β : Type}
open RTree

theorem Loc.ofPath_inj {p q : Path} (h : Loc.ofPath p = Loc.ofPath q) : p = q := by
  rw [← Loc.ofPath_full p, h, Loc.ofPath_full]

theorem mutVisits_nodup {base : Path} {ts : List (RTree (Path × α))} (h : ((preL ts).map Prod.fst).Nodup) :
    ((mutVisits base ts).map Prod.fst).Nodup := by
  have hp : (((levelOrder ts).map data).map Prod.fst).Nodup := by
    rw [levelOrder_eq]
    exact ((preL_perm _ ts (Nat.le_refl _)).map _).nodup_iff.mpr h
  rw [mutVisits, List.map_map]
  rw [List.map_map] at hp
  have : (Prod.fst ∘ fun s : RTree (Path × α) => (Loc.ofPath (base ++ s.data.1), s.kids.length, s.count - 1)) =
      (fun p => Loc.ofPath (base ++ p)) ∘ (Prod.fst ∘ data) := rfl
  rw [this, ← List.map_map]
  exact List.Nodup.map (fun p q e => List.append_cancel_left (Loc.ofPath_inj e)) hp

theorem withPath_nodup (t : RTree α) : ((preL [withPath t]).map Prod.fst).Nodup := by
  simpa [withPath] using nodup_mapPath [] t

theorem withPathL_nodup (ts : List (RTree α)) : ((preL (withPathL ts)).map Prod.fst).Nodup := nodup_mapPathL [] 0 ts

/-- Different mutable borrows lead to different places. -/
structure Distinct (S : LStore α) : Prop where
  items : ∀ i j x l, S.refs i = some (x, .item l) → S.refs j = some (x, .item l) → i = j
  ahead : ∀ i j x l ps, S.refs i = some (x, .item l) → S.refs j = some (x, .bfsMut ps) → l ∉ ps.map Prod.fst
  nodup : ∀ i x ps, S.refs i = some (x, .bfsMut ps) → (ps.map Prod.fst).Nodup
  one : ∀ i j x ps ps', S.refs i = some (x, .bfsMut ps) → S.refs j = some (x, .bfsMut ps') → i = j
  fresh : ∀ i, S.made ≤ i → S.refs i = none

namespace Distinct
variable {S : LStore α}

theorem empty : Distinct (LStore.empty : LStore α) :=
  ⟨by simp [LStore.empty], by simp [LStore.empty], by simp [LStore.empty], by simp [LStore.empty], by simp [LStore.empty]⟩

theorem new (D : Distinct S) {x : Var} {v : View α} (h : v.excl = false) : Distinct (S.new x v).1 := by
  have h1 : ∀ i y l, (S.new x v).1.refs i = some (y, .item l) → S.refs i = some (y, .item l) := by
    intro i y l e
    simp only [LStore.new] at e
    split at e
    · simp only [Option.some.injEq, Prod.mk.injEq] at e; rw [e.2] at h; cases h
    · exact e
  have h2 : ∀ i y l, (S.new x v).1.refs i = some (y, .bfsMut l) → S.refs i = some (y, .bfsMut l) := by
    intro i y l e
    simp only [LStore.new] at e
    split at e
    · simp only [Option.some.injEq, Prod.mk.injEq] at e; rw [e.2] at h; cases h
    · exact e
  refine ⟨fun i j y l a b => D.items i j y l (h1 _ _ _ a) (h1 _ _ _ b), fun i j y l ps a b => D.ahead i j y l ps (h1 _ _ _ a) (h2 _ _ _ b),
    fun i y ps a => D.nodup i y ps (h2 _ _ _ a), fun i j y ps ps' a b => D.one i j y ps ps' (h2 _ _ _ a) (h2 _ _ _ b), fun i hi => ?_⟩
  simp only [LStore.new] at hi ⊢
  rw [if_neg (by omega)]
  exact D.fresh i (by omega)

theorem put (D : Distinct S) {i : Nat} {b : Option (Var × View α)} (hi : i < S.made) (h : ∀ x v, b = some (x, v) → v.excl = false) :
    Distinct (S.put i b) := by
  have h1 : ∀ j y l, (S.put i b).refs j = some (y, .item l) → S.refs j = some (y, .item l) := by
    intro j y l e
    simp only [LStore.put] at e
    split at e
    · have := h _ _ e; cases this
    · exact e
  have h2 : ∀ j y l, (S.put i b).refs j = some (y, .bfsMut l) → S.refs j = some (y, .bfsMut l) := by
    intro j y l e
    simp only [LStore.put] at e
    split at e
    · have := h _ _ e; cases this
    · exact e
  refine ⟨fun i j y l a b => D.items i j y l (h1 _ _ _ a) (h1 _ _ _ b), fun i j y l ps a b => D.ahead i j y l ps (h1 _ _ _ a) (h2 _ _ _ b),
    fun i y ps a => D.nodup i y ps (h2 _ _ _ a), fun i j y ps ps' a b => D.one i j y ps ps' (h2 _ _ _ a) (h2 _ _ _ b), fun j hj => ?_⟩
  simp only [LStore.put] at hj ⊢
  rw [if_neg (by omega)]
  exact D.fresh j hj

theorem lt (D : Distinct S) {i : Nat} {b : Var × View α} (h : S.refs i = some b) : i < S.made := by
  refine Nat.lt_of_not_le fun hi => ?_
  rw [D.fresh i hi] at h; cases h

theorem store (D : Distinct S) (s : Store α) : Distinct { S with store := s } := ⟨D.items, D.ahead, D.nodup, D.one, D.fresh⟩

/-- A new mutable iteration. -/
theorem newMut (D : Distinct S) {x : Var} {ps : List (Loc × Nat × Nat)} (hx : ∀ j v, S.refs j ≠ some (x, v)) (hn : (ps.map Prod.fst).Nodup) :
    Distinct (S.new x (.bfsMut ps)).1 := by
  have h1 : ∀ i y l, (S.new x (.bfsMut ps)).1.refs i = some (y, .item l) → S.refs i = some (y, .item l) := by
    intro i y l e
    simp only [LStore.new] at e
    split at e
    · simp at e
    · exact e
  have h2 : ∀ i y qs, (S.new x (.bfsMut ps)).1.refs i = some (y, .bfsMut qs) →
      (i = S.made ∧ y = x ∧ qs = ps) ∨ S.refs i = some (y, .bfsMut qs) := by
    intro i y l e
    simp only [LStore.new] at e
    split at e
    · rename_i hi
      simp only [Option.some.injEq, Prod.mk.injEq, View.bfsMut.injEq] at e; exact .inl ⟨hi, e.1.symm, e.2.symm⟩
    · exact .inr e
  refine ⟨fun i j y l a b => D.items i j y l (h1 _ _ _ a) (h1 _ _ _ b), fun i j y l qs a b => ?_, fun i y qs a => ?_, fun i j y qs qs' a b => ?_, fun i hi => ?_⟩
  · rcases h2 _ _ _ b with ⟨-, rfl, -⟩ | b'
    · exact absurd (h1 _ _ _ a) (hx _ _)
    · exact D.ahead i j y l qs (h1 _ _ _ a) b'
  · rcases h2 _ _ _ a with ⟨-, -, rfl⟩ | a'
    · exact hn
    · exact D.nodup _ _ _ a'
  · rcases h2 _ _ _ a with ⟨rfl, rfl, -⟩ | a' <;> rcases h2 _ _ _ b with ⟨rfl, hy, -⟩ | b'
    · rfl
    · exact absurd b' (hx _ _)
    · subst hy; exact absurd a' (hx _ _)
    · exact D.one _ _ _ _ _ a' b'
  · simp only [LStore.new] at hi ⊢
    rw [if_neg (by omega)]
    exact D.fresh i (by omega)

/-- A mutable visit. -/
theorem visit (D : Distinct S) {i : Nat} {x : Var} {p : Loc × Nat × Nat} {ps : List (Loc × Nat × Nat)}
    (h : S.refs i = some (x, .bfsMut (p :: ps))) : Distinct ((S.put i (some (x, .bfsMut ps))).new x (.item p.1)).1 := by
  have hi := D.lt h
  have hn := D.nodup _ _ _ h
  simp only [List.map_cons, List.nodup_cons] at hn
  have hrefs : ∀ j, ((S.put i (some (x, .bfsMut ps))).new x (.item p.1)).1.refs j =
      if j = S.made then some (x, .item p.1) else if j = i then some (x, .bfsMut ps) else S.refs j := fun j => rfl
  have h1 : ∀ j y l, ((S.put i (some (x, .bfsMut ps))).new x (.item p.1)).1.refs j = some (y, .item l) →
      (j = S.made ∧ y = x ∧ l = p.1) ∨ S.refs j = some (y, .item l) := by
    intro j y l e
    rw [hrefs] at e
    split at e
    · rename_i hj
      simp only [Option.some.injEq, Prod.mk.injEq, View.item.injEq] at e; exact .inl ⟨hj, e.1.symm, e.2.symm⟩
    · split at e
      · simp at e
      · exact .inr e
  have h2 : ∀ j y qs, ((S.put i (some (x, .bfsMut ps))).new x (.item p.1)).1.refs j = some (y, .bfsMut qs) →
      (j = i ∧ y = x ∧ qs = ps) ∨ (j ≠ i ∧ S.refs j = some (y, .bfsMut qs)) := by
    intro j y l e
    rw [hrefs] at e
    split at e
    · simp at e
    · split at e
      · rename_i hj
        simp only [Option.some.injEq, Prod.mk.injEq, View.bfsMut.injEq] at e; exact .inl ⟨hj, e.1.symm, e.2.symm⟩
      · rename_i hj; exact .inr ⟨hj, e⟩
  have hold : ∀ j l, S.refs j = some (x, .item l) → l ≠ p.1 ∧ l ∉ ps.map Prod.fst := by
    intro j l e
    have := D.ahead _ _ _ _ _ e h
    simpa using this
  refine ⟨fun j k y l a b => ?_, fun j k y l qs a b => ?_, fun j y qs a => ?_, fun j k y qs qs' a b => ?_, fun j hj => ?_⟩
  · rcases h1 _ _ _ a with ⟨rfl, rfl, rfl⟩ | a' <;> rcases h1 _ _ _ b with ⟨rfl, hy, hl⟩ | b'
    · rfl
    · exact absurd rfl (hold _ _ b').1
    · subst hy; subst hl; exact absurd rfl (hold _ _ a').1
    · exact D.items _ _ _ _ a' b'
  · rcases h1 _ _ _ a with ⟨rfl, rfl, rfl⟩ | a' <;> rcases h2 _ _ _ b with ⟨rfl, hy, rfl⟩ | ⟨hk, b'⟩
    · exact hn.1
    · exact absurd (D.one _ _ _ _ _ b' h) hk
    · subst hy; exact (hold _ _ a').2
    · exact D.ahead _ _ _ _ _ a' b'
  · rcases h2 _ _ _ a with ⟨-, -, rfl⟩ | ⟨-, a'⟩
    · exact hn.2
    · exact D.nodup _ _ _ a'
  · rcases h2 _ _ _ a with ⟨rfl, rfl, -⟩ | ⟨hj, a'⟩ <;> rcases h2 _ _ _ b with ⟨rfl, hy, -⟩ | ⟨hk, b'⟩
    · rfl
    · exact absurd (D.one _ _ _ _ _ b' h) hk
    · subst hy; exact absurd (D.one _ _ _ _ _ a' h) hj
    · exact D.one _ _ _ _ _ a' b'
  · simp only [LStore.new, LStore.put] at hj
    rw [hrefs, if_neg (by omega), if_neg (by omega)]
    exact D.fresh j (by omega)

theorem atNode (D : Distinct S) {x : Var} {l : Loc} {k : Val α → RTree α → LStore α × LOut α} (h : ∀ v t, Distinct (k v t).1) :
    Distinct (S.atNode x l k).1 := by
  simp only [LStore.atNode]
  repeat' split
  all_goals first
    | exact D
    | exact h _ _

theorem atKids (D : Distinct S) {x : Var} {p : Path} {k : Val α → List (RTree α) → LStore α × LOut α} (h : ∀ v t, Distinct (k v t).1) :
    Distinct (S.atKids x p k).1 := by
  simp only [LStore.atKids]
  repeat' split
  all_goals first
    | exact D
    | exact h _ _

theorem atRef (D : Distinct S) {i : Nat} {k : Var → Val α → Loc → RTree α → LStore α × LOut α} (h : ∀ x v l t, Distinct (k x v l t).1) :
    Distinct (S.atRef i k).1 := by
  simp only [LStore.atRef]
  repeat' split
  all_goals first
    | exact D
    | exact h _ _ _ _

theorem newAt (D : Distinct S) (x : Var) (v : Val α) (l : Loc) : Distinct (S.newAt x v l).1 := by
  simp only [LStore.newAt]
  split
  · exact D.new rfl
  · exact D

theorem doCall (D : Distinct S) (op : Op α) : Distinct (S.doCall op).1 := by
  simp only [LStore.doCall]
  split
  · exact D.store _
  · exact D.store _
  · exact D
  · exact D

theorem unborrowed (D : Distinct S) {x : Var} (h : borrowed S.refs S.made x = false) (j : Nat) (v : View α) : S.refs j ≠ some (x, v) := by
  intro e
  simp only [borrowed, List.any_eq_false, List.mem_range] at h
  exact h j (D.lt e) (by simp [e])

theorem step (D : Distinct S) (op : LOp α) : Distinct (lspec S op).1 := by
  simp only [lspec]
  split
  · exact D
  rename_i hcl
  rw [Bool.not_eq_true] at hcl
  cases op with
  | call op => exact D.doCall op
  | hold x l => exact D.atNode fun v t => D.new rfl
  | iter x p => exact D.atKids fun v t => D.new rfl
  | bfs x l => exact D.atNode fun v t => D.new rfl
  | bfsChildren x p => exact D.atKids fun v t => D.new rfl
  | bfsMut x l => exact D.atNode fun v t => D.newMut (D.unborrowed hcl) (mutVisits_nodup (withPath_nodup t))
  | bfsChildrenMut x p => exact D.atKids fun v t => D.newMut (D.unborrowed hcl) (mutVisits_nodup (withPathL_nodup t))
  | get i =>
    simp only [ldo]
    repeat' split
    all_goals exact D
  | set i d =>
    simp only [ldo]
    split
    · exact D.doCall _
    · exact D
  | look i => exact D.atRef fun x v l t => D
  | parentOf i => exact D.atRef fun x v l t => by split <;> first | exact D.new rfl | exact D
  | frontOf i => exact D.atRef fun x v l t => D.newAt _ _ _
  | backOf i => exact D.atRef fun x v l t => D.newAt _ _ _
  | iterOf i => exact D.atRef fun x v l t => D.new rfl
  | bfsOf i => exact D.atRef fun x v l t => D.new rfl
  | bfsChildrenOf i => exact D.atRef fun x v l t => D.new rfl
  | next i =>
    simp only [ldo]
    split
    · rename_i h
      split
      · exact (D.put (D.lt h) (by simp only [Option.some.injEq, Prod.mk.injEq]; rintro _ _ ⟨-, rfl⟩; rfl)).new rfl
      · exact D
    · rename_i h
      exact D.put (D.lt h) (by simp only [Option.some.injEq, Prod.mk.injEq]; rintro _ _ ⟨-, rfl⟩; rfl)
    · exact D
    · rename_i h; exact D.visit h
    · exact D
  | len i =>
    simp only [ldo]
    split <;> exact D
  | release i =>
    simp only [ldo]
    split
    · rename_i h; exact D.put (D.lt h) (by simp)
    · exact D

end Distinct

/-- A node is at one position only. -/
theorem resolve_inj {h : Heap α} {K : Addr → List Addr} (hI : Inv h K) {a n : Addr} (hr : h.up a = none) : ∀ {p q : Path},
    resolve K a p = some n → resolve K a q = some n → p = q := by
  have split : ∀ {p : Path} {i n}, resolve K a (p ++ [i]) = some n → ∃ b, resolve K a p = some b ∧ (K b)[i]? = some n := by
    intro p i n h
    simp only [resolve_append, Option.bind_eq_some_iff] at h
    obtain ⟨b, h1, h2⟩ := h
    refine ⟨b, h1, ?_⟩
    simp only [resolve] at h2
    cases e : (K b)[i]? with
    | none => rw [e] at h2; cases h2
    | some c => rw [e] at h2; exact h2
  intro p
  induction p using List.reverseRecOn generalizing n with
  | nil =>
    intro q h1 h2
    simp only [resolve, Option.some.injEq] at h1
    subst h1
    rcases List.eq_nil_or_concat' q with rfl | ⟨q, j, rfl⟩
    · rfl
    · obtain ⟨b, -, h3⟩ := split h2
      have := hI.up_of_mem (List.mem_of_getElem? h3)
      rw [hr] at this; cases this
  | append_singleton p i ih =>
    intro q h1 h2
    obtain ⟨b, g1, g2⟩ := split h1
    have hb := hI.up_of_mem (List.mem_of_getElem? g2)
    rcases List.eq_nil_or_concat' q with rfl | ⟨q, j, rfl⟩
    · simp only [resolve, Option.some.injEq] at h2
      subst h2
      rw [hr] at hb; cases hb
    · obtain ⟨c, k1, k2⟩ := split h2
      have hc := hI.up_of_mem (List.mem_of_getElem? k2)
      rw [hb] at hc
      obtain rfl := Option.some.inj hc
      rw [ih g1 k1]
      have hnd := hI.l.nodup b
      obtain ⟨hi, ei⟩ := List.getElem?_eq_some_iff.mp g2
      obtain ⟨hj, ej⟩ := List.getElem?_eq_some_iff.mp k2
      rw [(List.Nodup.getElem_inj_iff hnd).mp (ei.trans ej.symm)]

theorem at_inj {m : Machine α} {K : Addr → List Addr} (M : MInv m K) {x : Var} {v : Val (Addr × α)} (hx : m.lview x = some v) {l l' : Loc}
    {u u' : RTree (Addr × α)} (h : v.at? l = some u) (h' : v.at? l' = some u') (e : u.data.1 = u'.data.1) : l = l' := by
  obtain ⟨hd, -, ho, hv⟩ := M.lview_some hx
  have h1 := (at_lab M ho hv h).2.2
  have h2 := (at_lab M ho hv h').2.2
  rw [e] at h1
  have := resolve_inj M.inv ho.root h1 h2
  rw [← Loc.full_ofPath l, this, Loc.full_ofPath]

theorem at_var {m : Machine α} {K : Addr → List Addr} (M : MInv m K) {x y : Var} {v w : Val (Addr × α)} (hx : m.lview x = some v)
    (hy : m.lview y = some w) {l l' : Loc} {u u' : RTree (Addr × α)} (h : v.at? l = some u) (h' : w.at? l' = some u')
    (e : u.data.1 = u'.data.1) : x = y := by
  obtain ⟨hd, ex, ho, hv⟩ := M.lview_some hx
  obtain ⟨hd', ey, ho', hv'⟩ := M.lview_some hy
  have h1 := (at_lab M ho hv h).2.2
  have h2 := (at_lab M ho' hv' h').2.2
  rw [e] at h1
  refine M.dist x y hd hd' ex ey ?_
  have key : ∀ {p q : Path} {a b n : Addr}, m.heap.up a = none → m.heap.up b = none → resolve K a p = some n → resolve K b q = some n → a = b := by
    intro p q a b n ha hb h1 h2
    have up : ∀ {c d : Addr}, m.heap.up d = none → Reach K c d → c = d := by
      intro c d hd hr
      rcases hr.cases_tail with h | ⟨e, -, h⟩
      · exact h
      · have := M.inv.up_of_mem h
        rw [hd] at this; cases this
    rcases M.inv.reach_linear (resolve_reach h1) (resolve_reach h2) with hr | hr
    · exact up hb hr
    · exact (up ha hr).symm
  exact key ho.root ho'.root h1 h2

end Trees
