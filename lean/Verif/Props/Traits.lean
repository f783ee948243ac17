import Verif.Props.Bfs
import Verif.Proof.Traits
/-
C28–C31: equality, order, hashing and printing.
-/
namespace Trees
set_option linter.unusedSimpArgs false
variable {α σ : Type}
open RTree

/-- The path of a node from the root handle. -/
def Loc.path : Loc → Path
  | .root => []
  | .child q i => q ++ [i]

namespace Proof

/-- A node that a client can see, with its address. -/
theorem node_den {m : Machine α} {K : Addr → List Addr} (M : MInv m K) {x : Var} {l : Loc} {v : Val α} {t : RTree α}
    (hx : m.view x = some v) (hl : v.at? l = some t) :
    ∃ a, m.nodeAt x l.path = some a ∧ m.heap.Used a ∧ Den m.heap.val K a t := by
  cases l with
  | root =>
    cases v <;> simp [Val.at?] at hl
    subst hl
    rename_i t
    obtain ⟨hd, n, h1, h2⟩ := nodeAt_at M (p := []) hx (us := t.kids) rfl
    refine ⟨n, h1, ?_, ?_⟩
    · exact M.inv.reach_used (M.hnd x hd h2.env).used (resolve_reach h2.res)
    · have hd2 := h2.den
      have hr := h2.res
      cases hd <;> simp only [HDen] at hd2
      simp only [resolve, Handle.addr, Option.some.injEq] at hr
      subst hr; exact hd2
  | child q i =>
    simp only [Val.at?] at hl
    cases hq : kidsAt v.kids q with
    | none => simp [hq] at hl
    | some us =>
      simp only [hq, Option.bind_some] at hl
      obtain ⟨hd, n, h1, h2⟩ := nodeAt_at M hx hq
      have h3 := nodeAt_child M h2 i
      rcases h2.kden.get i with ⟨_, h4⟩ | ⟨c, t', h4, h5, h6⟩
      · rw [h4] at hl; simp at hl
      · rw [hl] at h5; cases h5
        exact ⟨c, by rw [Loc.path, h3, h4], M.inv.used_of_mem (List.mem_of_getElem? h4), h6⟩

theorem forest_den {m : Machine α} {K : Addr → List Addr} (M : MInv m K) {x : Var} {ts : List (RTree α)}
    (hx : m.view x = some (.forest ts)) :
    ∃ a, m.nodeAt x [] = some a ∧ m.heap.Used a ∧ DenL m.heap.val K (K a) ts := by
  obtain ⟨hd, n, h1, h2⟩ := nodeAt_at M (p := []) hx (us := ts) rfl
  exact ⟨n, h1, M.inv.reach_used (M.hnd x hd h2.env).used (resolve_reach h2.res), h2.kden⟩

end Proof

section
variable {m : Machine α} (hr : Reachable m)
include hr

/-! ### C28 -/

/-- **C28** `==` of any two nodes (of the same or of different variables; the root of a tree included) is true
exactly when they have the same shape and `T`'s `==` holds at every position. Nothing changes. -/
theorem c28_eq {x y : Var} {l l' : Loc} {v w : Val α} {t u : RTree α} (hx : m.view x = some v) (ht : v.at? l = some t)
    (hy : m.view y = some w) (hu : w.at? l' = some u) (eq : α → α → Bool) :
    ∃ a b r, m.nodeAt x l.path = some a ∧ m.nodeAt y l'.path = some b ∧ eqNode eq a b m.heap = .ok r m.heap ∧
      (r = true ↔ RTree.Same (fun d e => eq d e = true) t u) := by
  obtain ⟨K, M⟩ := Proof.reachable_minv hr
  obtain ⟨a, h1, h2, h3⟩ := Proof.node_den M hx ht
  obtain ⟨b, g1, g2, g3⟩ := Proof.node_den M hy hu
  refine ⟨a, b, _, h1, g1, nodeEq_ok M.inv eq _ h2 g2 h3 g3 (Nat.lt_succ_self _), eqB_iff eq t u⟩

/-- **C28** when `T`'s `==` is equality of values, `==` is equality of trees, however they were built or stored. -/
theorem c28_eq_structural {x y : Var} {l l' : Loc} {v w : Val α} {t u : RTree α} (hx : m.view x = some v)
    (ht : v.at? l = some t) (hy : m.view y = some w) (hu : w.at? l' = some u) {eq : α → α → Bool}
    (heq : ∀ d e, eq d e = true ↔ d = e) :
    ∃ a b r, m.nodeAt x l.path = some a ∧ m.nodeAt y l'.path = some b ∧ eqNode eq a b m.heap = .ok r m.heap ∧
      (r = true ↔ t = u) := by
  obtain ⟨a, b, r, h1, h2, h3, h4⟩ := c28_eq hr hx ht hy hu eq
  refine ⟨a, b, r, h1, h2, h3, ?_⟩
  have : (fun d e => eq d e = true) = fun d e => d = e := by funext d e; exact propext (heq d e)
  rw [h4, this, same_eq]

/-- **C28** `!=` is the negation of `==` (when it is for `T`). -/
theorem c28_ne {x y : Var} {l l' : Loc} {v w : Val α} {t u : RTree α} (hx : m.view x = some v) (ht : v.at? l = some t)
    (hy : m.view y = some w) (hu : w.at? l' = some u) {eq ne : α → α → Bool} (hne : ∀ d e, ne d e = !(eq d e)) :
    ∃ a b r, m.nodeAt x l.path = some a ∧ m.nodeAt y l'.path = some b ∧ eqNode eq a b m.heap = .ok r m.heap ∧
      neNode eq ne a b m.heap = .ok (!r) m.heap := by
  obtain ⟨K, M⟩ := Proof.reachable_minv hr
  obtain ⟨a, h1, h2, h3⟩ := Proof.node_den M hx ht
  obtain ⟨b, g1, g2, g3⟩ := Proof.node_den M hy hu
  refine ⟨a, b, _, h1, g1, nodeEq_ok M.inv eq _ h2 g2 h3 g3 (Nat.lt_succ_self _), ?_⟩
  have := nodeNe_ok M.inv eq ne _ h2 g2 h3 g3 (Nat.lt_succ_self _)
  rw [neNode, Trees.M.fuelled_apply]
  refine this.trans ?_
  cases t; cases u
  simp [eqB, hne, Bool.not_and]

/-- **C28** for forests. -/
theorem c28_forest {x y : Var} {ts us : List (RTree α)} (hx : m.view x = some (.forest ts))
    (hy : m.view y = some (.forest us)) (eq : α → α → Bool) :
    ∃ a b r, m.nodeAt x [] = some a ∧ m.nodeAt y [] = some b ∧ eqForest eq a b m.heap = .ok r m.heap ∧
      neForest eq a b m.heap = .ok (!r) m.heap ∧
      (r = true ↔ SameL (fun d e => eq d e = true) ts us) ∧
      ((∀ d e, eq d e = true ↔ d = e) → (r = true ↔ ts = us)) := by
  obtain ⟨K, M⟩ := Proof.reachable_minv hr
  obtain ⟨a, h1, h2, h3⟩ := Proof.forest_den M hx
  obtain ⟨b, g1, g2, g3⟩ := Proof.forest_den M hy
  have e := eqForest_ok M.inv eq h2 g2 h3 g3
  refine ⟨a, b, _, h1, g1, e, by simp [neForest, e], eqBL_iff eq ts us, ?_⟩
  intro heq
  have : (fun d e => eq d e = true) = fun d e => d = e := by funext d e; exact propext (heq d e)
  rw [eqBL_iff, this, sameL_eq]

/-! ### C29 -/

/-- **C29** `cmp` and `partial_cmp` of nodes: data first, then children lexicographically. -/
theorem c29_cmp {x y : Var} {l l' : Loc} {v w : Val α} {t u : RTree α} (hx : m.view x = some v) (ht : v.at? l = some t)
    (hy : m.view y = some w) (hu : w.at? l' = some u) (c : α → α → Ordering) (pc : α → α → Option Ordering) :
    ∃ a b, m.nodeAt x l.path = some a ∧ m.nodeAt y l'.path = some b ∧
      cmpNode c a b m.heap = .ok (RTree.cmp c t u) m.heap ∧ pcmpNode pc a b m.heap = .ok (RTree.pcmp pc t u) m.heap := by
  obtain ⟨K, M⟩ := Proof.reachable_minv hr
  obtain ⟨a, h1, h2, h3⟩ := Proof.node_den M hx ht
  obtain ⟨b, g1, g2, g3⟩ := Proof.node_den M hy hu
  exact ⟨a, b, h1, g1, nodeCmp_ok M.inv c _ h2 g2 h3 g3 (Nat.lt_succ_self _),
    nodePcmp_ok M.inv pc _ h2 g2 h3 g3 (Nat.lt_succ_self _)⟩

/-- **C29** for forests. -/
theorem c29_cmp_forest {x y : Var} {ts us : List (RTree α)} (hx : m.view x = some (.forest ts))
    (hy : m.view y = some (.forest us)) (c : α → α → Ordering) (pc : α → α → Option Ordering) :
    ∃ a b, m.nodeAt x [] = some a ∧ m.nodeAt y [] = some b ∧
      cmpForest c a b m.heap = .ok (cmpL c ts us) m.heap ∧ pcmpForest pc a b m.heap = .ok (pcmpL pc ts us) m.heap := by
  obtain ⟨K, M⟩ := Proof.reachable_minv hr
  obtain ⟨a, h1, h2, h3⟩ := Proof.forest_den M hx
  obtain ⟨b, g1, g2, g3⟩ := Proof.forest_den M hy
  exact ⟨a, b, h1, g1, cmpForest_ok M.inv c h2 g2 h3 g3, pcmpForest_ok M.inv pc h2 g2 h3 g3⟩

/-! ### C30 -/

/-- **C30** what `hash` feeds to the hasher is the pre-order sequence of the data. -/
theorem c30_hash {x : Var} {l : Loc} {v : Val α} {t : RTree α} (hx : m.view x = some v) (ht : v.at? l = some t)
    (hs : α → σ → σ) (s : σ) :
    ∃ a, m.nodeAt x l.path = some a ∧ hashNode hs a s m.heap = .ok (t.pre.foldl (fun s d => hs d s) s) m.heap := by
  obtain ⟨K, M⟩ := Proof.reachable_minv hr
  obtain ⟨a, h1, h2, h3⟩ := Proof.node_den M hx ht
  exact ⟨a, h1, nodeHash_ok M.inv hs _ h2 h3 (Nat.lt_succ_self _)⟩

theorem c30_hash_forest {x : Var} {ts : List (RTree α)} (hx : m.view x = some (.forest ts)) (hs : α → σ → σ) (s : σ) :
    ∃ a, m.nodeAt x [] = some a ∧ hashForest hs a s m.heap = .ok ((preL ts).foldl (fun s d => hs d s) s) m.heap := by
  obtain ⟨K, M⟩ := Proof.reachable_minv hr
  obtain ⟨a, h1, h2, h3⟩ := Proof.forest_den M hx
  exact ⟨a, h1, hashForest_ok M.inv hs h2 h3⟩

/-- **C30** nodes that are `==` hash equally under every hasher, if items of `T` do. -/
theorem c30_equal_hash {x y : Var} {l l' : Loc} {v w : Val α} {t u : RTree α} (hx : m.view x = some v)
    (ht : v.at? l = some t) (hy : m.view y = some w) (hu : w.at? l' = some u) {eq : α → α → Bool} {hs : α → σ → σ}
    (hT : ∀ d e s, eq d e = true → hs d s = hs e s) (s : σ) :
    ∃ a b, m.nodeAt x l.path = some a ∧ m.nodeAt y l'.path = some b ∧
      (eqNode eq a b m.heap = .ok true m.heap → hashNode hs a s m.heap = hashNode hs b s m.heap) := by
  obtain ⟨a, b, r, h1, h2, h3, h4⟩ := c28_eq hr hx ht hy hu eq
  obtain ⟨a', g1, g2⟩ := c30_hash hr hx ht hs s
  obtain ⟨b', g3, g4⟩ := c30_hash hr hy hu hs s
  rw [h1] at g1; cases g1
  rw [h2] at g3; cases g3
  refine ⟨a, b, h1, h2, fun he => ?_⟩
  rw [h3] at he
  have hrt : r = true := by simpa using congrArg (fun z => match z with | Res.ok b _ => b | _ => false) he
  rw [g2, g4]
  have key : ∀ (t u : RTree α), RTree.Same (fun d e => eq d e = true) t u → ∀ s,
      t.pre.foldl (fun s d => hs d s) s = u.pre.foldl (fun s d => hs d s) s := by
    refine RTree.ind (fun d ks ih => ?_)
    rintro ⟨e, us⟩ h s
    simp only [RTree.Same] at h
    simp only [pre, List.foldl_cons, hT d e s h.1]
    have hl : ∀ (ks us : List (RTree α)), (∀ t ∈ ks, ∀ u, RTree.Same (fun d e => eq d e = true) t u → ∀ s,
        t.pre.foldl (fun s d => hs d s) s = u.pre.foldl (fun s d => hs d s) s) → SameL (fun d e => eq d e = true) ks us → ∀ s,
        (preL ks).foldl (fun s d => hs d s) s = (preL us).foldl (fun s d => hs d s) s := by
      intro ks
      induction ks with
      | nil => intro us _ h s; cases us <;> simp [SameL] at h ⊢
      | cons k ks ihl =>
        intro us ih h s
        cases us with
        | nil => simp [SameL] at h
        | cons u us =>
          simp only [SameL] at h
          simp only [preL, List.foldl_append, ih k (by simp) u h.1]
          exact ihl us (fun t ht => ih t (by simp [ht])) h.2 _
    exact hl ks us ih h.2 _
  rw [key t u (h4.mp hrt) s]

/-! ### C31 -/

/-- **C31** `to_string()` has the documented form (`render`, `renderForest`). -/
theorem c31_display {x : Var} {l : Loc} {v : Val α} {t : RTree α} (hx : m.view x = some v) (ht : v.at? l = some t)
    (sh : α → List Char) :
    ∃ a, m.nodeAt x l.path = some a ∧ fmtNode sh a m.heap = .ok (render sh t) m.heap := by
  obtain ⟨K, M⟩ := Proof.reachable_minv hr
  obtain ⟨a, h1, h2, h3⟩ := Proof.node_den M hx ht
  exact ⟨a, h1, nodeFmt_ok M.inv sh _ h2 h3 (Nat.lt_succ_self _)⟩

theorem c31_display_forest {x : Var} {ts : List (RTree α)} (hx : m.view x = some (.forest ts)) (sh : α → List Char) :
    ∃ a, m.nodeAt x [] = some a ∧ fmtForest sh a m.heap = .ok (renderForest sh ts) m.heap := by
  obtain ⟨K, M⟩ := Proof.reachable_minv hr
  obtain ⟨a, h1, h2, h3⟩ := Proof.forest_den M hx
  exact ⟨a, h1, fmtForest_ok M.inv sh h2 h3⟩

end

/-! ### C29: laws of the order -/

mutual
/-- **C29** antisymmetry: swapping the arguments swaps the result. -/
theorem c29_swap {c : α → α → Ordering} (hc : ∀ d e, c d e = (c e d).swap) : ∀ t u, RTree.cmp c t u = (RTree.cmp c u t).swap
  | node d ks, node e us => by
    simp only [RTree.cmp, Ordering.swap_then, ← hc d e, ← c29_swapL hc ks us]
theorem c29_swapL {c : α → α → Ordering} (hc : ∀ d e, c d e = (c e d).swap) : ∀ ts us, cmpL c ts us = (cmpL c us ts).swap
  | [], [] => by simp [cmpL]
  | [], _ :: _ => by simp [cmpL]
  | _ :: _, [] => by simp [cmpL]
  | t :: ts, u :: us => by simp only [cmpL, Ordering.swap_then, ← c29_swap hc t u, ← c29_swapL hc ts us]
end

/-- A three-way comparison is a total preorder: swapping, and `≤` is transitive. -/
structure TotalCmp {β : Type} (c : β → β → Ordering) : Prop where
  swap : ∀ d e, c d e = (c e d).swap
  trans : ∀ d e f, c d e ≠ .gt → c e f ≠ .gt → c d f ≠ .gt

namespace TotalCmp
variable {β : Type} {c : β → β → Ordering} (H : TotalCmp c)
include H

theorem eq_symm {d e : β} (h : c d e = .eq) : c e d = .eq := by rw [H.swap, h]; rfl
theorem lt_gt {d e : β} (h : c d e = .lt) : c e d = .gt := by rw [H.swap, h]; rfl

theorem eq_eq {d e f : β} (h1 : c d e = .eq) (h2 : c e f = .eq) : c d f = .eq := by
  have h3 := H.trans d e f (by simp [h1]) (by simp [h2])
  have h4 := H.trans f e d (by simp [H.eq_symm h2]) (by simp [H.eq_symm h1])
  have h5 := H.swap d f
  cases h6 : c d f <;> cases h7 : c f d <;> simp_all

theorem lt_le {d e f : β} (h1 : c d e = .lt) (h2 : c e f ≠ .gt) : c d f = .lt := by
  have h3 := H.trans d e f (by simp [h1]) h2
  cases h6 : c d f with
  | lt => rfl
  | gt => exact absurd h6 h3
  | eq =>
    have := H.trans e f d h2 (by simp [H.eq_symm h6])
    exact absurd (H.lt_gt h1) this

theorem le_lt {d e f : β} (h1 : c d e ≠ .gt) (h2 : c e f = .lt) : c d f = .lt := by
  have h3 := H.trans d e f h1 (by simp [h2])
  cases h6 : c d f with
  | lt => rfl
  | gt => exact absurd h6 h3
  | eq =>
    have := H.trans f d e (by simp [H.eq_symm h6]) h1
    exact absurd (H.lt_gt h2) this

end TotalCmp

theorem then_ne_gt {x y : Ordering} : x.then y ≠ .gt ↔ x = .lt ∨ (x = .eq ∧ y ≠ .gt) := by
  cases x <;> simp

theorem lex_trans {β : Type} {c : β → β → Ordering} (H : TotalCmp c) {d e f : β} {x y z : Ordering} (hz : x ≠ .gt → y ≠ .gt → z ≠ .gt)
    (h1 : (c d e).then x ≠ .gt) (h2 : (c e f).then y ≠ .gt) : (c d f).then z ≠ .gt := by
  rw [then_ne_gt] at *
  rcases h1 with h1 | ⟨h1, h1'⟩
  · left
    exact H.lt_le h1 (by rcases h2 with h2 | ⟨h2, _⟩ <;> simp [h2])
  · rcases h2 with h2 | ⟨h2, h2'⟩
    · exact .inl (H.le_lt (by simp [h1]) h2)
    · exact .inr ⟨H.eq_eq h1 h2, hz h1' h2'⟩

/-- **C29** if the order of the data is total, so is the order of trees, and of lists of trees (forests). -/
theorem c29_total {c : α → α → Ordering} (H : TotalCmp c) : TotalCmp (RTree.cmp c) ∧ TotalCmp (cmpL c) := by
  have key : ∀ n, (∀ t u v : RTree α, t.count + u.count + v.count ≤ n → RTree.cmp c t u ≠ .gt → RTree.cmp c u v ≠ .gt → RTree.cmp c t v ≠ .gt) ∧
      (∀ ts us vs : List (RTree α), countL ts + countL us + countL vs ≤ n → cmpL c ts us ≠ .gt → cmpL c us vs ≠ .gt → cmpL c ts vs ≠ .gt) := by
    intro n
    induction n with
    | zero =>
      refine ⟨fun t u v h => ?_, fun ts us vs h => ?_⟩
      · cases t; simp at h
      · cases ts with
        | cons t ts => cases t; simp at h
        | nil => cases us with
          | cons t ts => cases t; simp at h
          | nil => cases vs with
            | cons t ts => cases t; simp at h
            | nil => simp
    | succ n ih =>
      have h1 : ∀ t u v : RTree α, t.count + u.count + v.count ≤ n + 1 → RTree.cmp c t u ≠ .gt → RTree.cmp c u v ≠ .gt → RTree.cmp c t v ≠ .gt := by
        rintro ⟨d, ks⟩ ⟨e, us⟩ ⟨f, vs⟩ hn h1 h2
        simp only [RTree.cmp] at *
        exact lex_trans H (ih.2 ks us vs (by simp at hn; omega)) h1 h2
      refine ⟨h1, ?_⟩
      -- a total preorder restricted to trees of bounded size would do; the three trees at hand suffice
      intro ts us vs hn h2 h3
      cases ts with
      | nil => cases vs <;> simp [cmpL]
      | cons t ts =>
        cases us with
        | nil => simp [cmpL] at h2
        | cons u us =>
          cases vs with
          | nil => simp [cmpL] at h3
          | cons v vs =>
            have pos : ∀ w : RTree α, 0 < w.count := by rintro ⟨d, ks⟩; simp
            have p1 := pos t; have p2 := pos u; have p3 := pos v
            have hsw := c29_swap (c := c) H.swap
            simp only [countL] at hn
            have T : ∀ a b e : RTree α, a.count + b.count + e.count ≤ t.count + u.count + v.count →
                RTree.cmp c a b ≠ .gt → RTree.cmp c b e ≠ .gt → RTree.cmp c a e ≠ .gt := fun a b e hs => h1 a b e (by omega)
            simp only [cmpL] at h2 h3 ⊢
            have hz := ih.2 ts us vs (by omega)
            rw [then_ne_gt] at *
            have sw : ∀ a b : RTree α, RTree.cmp c a b = .eq → RTree.cmp c b a = .eq := by
              intro a b h; rw [hsw, h]; rfl
            have sl : ∀ a b : RTree α, RTree.cmp c a b = .lt → RTree.cmp c b a = .gt := by
              intro a b h; rw [hsw, h]; rfl
            rcases h2 with h2 | ⟨h2, h2'⟩
            · have h3' : RTree.cmp c u v ≠ .gt := by rcases h3 with h | ⟨h, _⟩ <;> simp [h]
              have h4 := T t u v (by omega) (by simp [h2]) h3'
              left
              cases h5 : RTree.cmp c t v with
              | lt => rfl
              | gt => exact absurd h5 h4
              | eq =>
                have := T u v t (by omega) h3' (by simp [sw _ _ h5])
                exact absurd (sl _ _ h2) this
            · rcases h3 with h3 | ⟨h3, h3'⟩
              · have h4 := T t u v (by omega) (by simp [h2]) (by simp [h3])
                left
                cases h5 : RTree.cmp c t v with
                | lt => rfl
                | gt => exact absurd h5 h4
                | eq =>
                  have := T v t u (by omega) (by simp [sw _ _ h5]) (by simp [h2])
                  exact absurd (sl _ _ h3) this
              · right
                refine ⟨?_, hz h2' h3'⟩
                have h4 := T t u v (by omega) (by simp [h2]) (by simp [h3])
                have h5 := T v u t (by omega) (by simp [sw _ _ h3]) (by simp [sw _ _ h2])
                cases h6 : RTree.cmp c t v with
                | eq => rfl
                | gt => exact absurd h6 h4
                | lt => exact absurd (sl _ _ h6) h5
  exact ⟨⟨c29_swap H.swap, fun t u v => (key _).1 t u v (Nat.le_refl _)⟩,
    ⟨c29_swapL H.swap, fun ts us vs => (key _).2 ts us vs (Nat.le_refl _)⟩⟩

mutual
/-- **C29** `cmp` returns `Equal` exactly when `==` holds (if so for `T`). -/
theorem c29_equal {c : α → α → Ordering} {R : α → α → Prop} (h : ∀ d e, c d e = .eq ↔ R d e) :
    ∀ t u : RTree α, RTree.cmp c t u = .eq ↔ RTree.Same R t u
  | node d ks, node e us => by simp [RTree.cmp, RTree.Same, Ordering.then_eq_eq, h, c29_equalL h ks us]
theorem c29_equalL {c : α → α → Ordering} {R : α → α → Prop} (h : ∀ d e, c d e = .eq ↔ R d e) :
    ∀ ts us : List (RTree α), cmpL c ts us = .eq ↔ SameL R ts us
  | [], [] => by simp [cmpL, SameL]
  | [], _ :: _ => by simp [cmpL, SameL]
  | _ :: _, [] => by simp [cmpL, SameL]
  | t :: ts, u :: us => by simp [cmpL, SameL, Ordering.then_eq_eq, c29_equal h t u, c29_equalL h ts us]
end

mutual
/-- **C29** `partial_cmp` agrees with `cmp` (if so for `T`). -/
theorem c29_partial_agrees {c : α → α → Ordering} {pc : α → α → Option Ordering} (h : ∀ d e, pc d e = some (c d e)) :
    ∀ t u : RTree α, RTree.pcmp pc t u = some (RTree.cmp c t u)
  | node d ks, node e us => by
    simp only [RTree.cmp, RTree.pcmp, h, pthen, c29_partial_agreesL h ks us]
    cases c d e <;> simp
theorem c29_partial_agreesL {c : α → α → Ordering} {pc : α → α → Option Ordering} (h : ∀ d e, pc d e = some (c d e)) :
    ∀ ts us : List (RTree α), pcmpL pc ts us = some (cmpL c ts us)
  | [], [] => by simp [cmpL, pcmpL]
  | [], _ :: _ => by simp [cmpL, pcmpL]
  | _ :: _, [] => by simp [cmpL, pcmpL]
  | t :: ts, u :: us => by
    simp only [cmpL, pcmpL, pthen, c29_partial_agrees h t u, c29_partial_agreesL h ts us]
    cases RTree.cmp c t u <;> simp
end

/-! ### C31: the string determines the tree -/

/-- A rendering without blanks and parentheses. -/
def Plain (s : List Char) : Prop := ∀ c ∈ s, c ≠ ' ' ∧ c ≠ '(' ∧ c ≠ ')'

theorem plain_split : ∀ {a b s s' : List Char}, Plain a → Plain b →
    (s = [] ∨ ∃ c r, s = c :: r ∧ (c = ' ' ∨ c = '(' ∨ c = ')')) →
    (s' = [] ∨ ∃ c r, s' = c :: r ∧ (c = ' ' ∨ c = '(' ∨ c = ')')) → a ++ s = b ++ s' → a = b ∧ s = s'
  | [], [], s, s', _, _, _, _, h => ⟨rfl, by simpa using h⟩
  | [], y :: b, s, s', _, hb, hs, _, h => by
    rcases hs with rfl | ⟨c, r, rfl, hc⟩
    · simp at h
    · simp at h
      have := hb y (by simp)
      rw [← h.1] at this
      rcases hc with rfl | rfl | rfl <;> simp at this
  | x :: a, [], s, s', ha, _, _, hs, h => by
    rcases hs with rfl | ⟨c, r, rfl, hc⟩
    · simp at h
    · simp at h
      have := ha x (by simp)
      rw [h.1] at this
      rcases hc with rfl | rfl | rfl <;> simp at this
  | x :: a, y :: b, s, s', ha, hb, hs, hs', h => by
    simp at h
    have := plain_split (fun c hc => ha c (by simp [hc])) (fun c hc => hb c (by simp [hc])) hs hs' h.2
    exact ⟨by rw [h.1, this.1], this.2⟩

/-- A rendering followed by a blank does not begin with a closing parenthesis. -/
theorem render_head {sh : α → List Char} (hsh : ∀ d, Plain (sh d)) (t : RTree α) (x : List Char) :
    (render sh t ++ ' ' :: x).head? ≠ some ')' := by
  have key : ∀ d (y : List Char), y.head? ≠ some ')' → (sh d ++ y).head? ≠ some ')' := by
    intro d y hy
    cases hd : sh d with
    | nil => simpa using hy
    | cons c r =>
      have := hsh d c (by simp [hd])
      simp [this.2.2]
  cases t with
  | node d ks =>
    cases ks with
    | nil => exact key d _ (by simp)
    | cons k ks =>
      rw [renderL_cons', List.append_assoc, List.append_assoc, List.append_assoc]
      exact key d _ (by simp)

theorem render_split {sh : α → List Char} (hsh : ∀ d, Plain (sh d)) : ∀ (t u : RTree α) (r r' : List Char),
    (r = [] ∨ ∃ x, r = ' ' :: x) → (r' = [] ∨ ∃ x, r' = ' ' :: x) → render sh t ++ r = render sh u ++ r' →
    t.map sh = u.map sh ∧ r = r' := by
  refine RTree.ind (fun d ks ih => ?_)
  rintro ⟨e, us⟩ r r' hr hr' h
  have st : ∀ {r : List Char}, (r = [] ∨ ∃ x, r = ' ' :: x) → (r = [] ∨ ∃ c q, r = c :: q ∧ (c = ' ' ∨ c = '(' ∨ c = ')')) := by
    rintro r (rfl | ⟨x, rfl⟩)
    · exact .inl rfl
    · exact .inr ⟨_, _, rfl, .inl rfl⟩
  have hl : ∀ (ts us : List (RTree α)) (r r' : List Char), (∀ t ∈ ts, ∀ (u : RTree α) (r r' : List Char),
      (r = [] ∨ ∃ x, r = ' ' :: x) → (r' = [] ∨ ∃ x, r' = ' ' :: x) → render sh t ++ r = render sh u ++ r' →
      t.map sh = u.map sh ∧ r = r') → renderL sh ts ++ ')' :: r = renderL sh us ++ ')' :: r' →
      mapL sh ts = mapL sh us ∧ r = r' := by
    intro ts
    induction ts with
    | nil =>
      intro us r r' _ h
      cases us with
      | nil => simpa [renderL] using h
      | cons u us =>
        exfalso
        have := render_head hsh u (renderL sh us ++ ')' :: r')
        simp only [renderL, List.nil_append, List.append_assoc, String.toList] at h
        apply this
        rw [show (render sh u ++ ' ' :: (renderL sh us ++ ')' :: r')) = ')' :: r from by rw [h]; rfl]
        rfl
    | cons t ts ihl =>
      intro us r r' hts h
      cases us with
      | nil =>
        exfalso
        have := render_head hsh t (renderL sh ts ++ ')' :: r)
        simp only [renderL, List.nil_append, List.append_assoc] at h
        apply this
        rw [show (render sh t ++ ' ' :: (renderL sh ts ++ ')' :: r)) = ')' :: r' from by rw [← h]; rfl]
        rfl
      | cons u us =>
        simp only [renderL, List.append_assoc] at h
        have h1 := hts t (by simp) u (' ' :: (renderL sh ts ++ ')' :: r)) (' ' :: (renderL sh us ++ ')' :: r'))
          (.inr ⟨_, rfl⟩) (.inr ⟨_, rfl⟩) h
        have h2 := h1.2
        simp at h2
        have h3 := ihl us r r' (fun t ht => hts t (by simp [ht])) h2
        exact ⟨by simp [h1.1, h3.1], h3.2⟩
  cases ks with
  | nil =>
    cases us with
    | nil =>
      have := plain_split (hsh d) (hsh e) (st hr) (st hr') h
      exact ⟨by simp [this.1], this.2⟩
    | cons u us =>
      rw [renderL_cons'] at h
      simp only [render, List.append_assoc] at h
      have := plain_split (hsh d) (hsh e) (st hr) (.inr ⟨_, _, rfl, .inr (.inl rfl)⟩) h
      rcases hr with rfl | ⟨x, rfl⟩ <;> simp at this
  | cons k ks =>
    cases us with
    | nil =>
      rw [renderL_cons'] at h
      simp only [render, List.append_assoc] at h
      have := plain_split (hsh d) (hsh e) (.inr ⟨_, _, rfl, .inr (.inl rfl)⟩) (st hr') h
      rcases hr' with rfl | ⟨x, rfl⟩ <;> simp at this
    | cons u us =>
      rw [renderL_cons', renderL_cons'] at h
      simp only [List.append_assoc] at h
      have h1 := plain_split (hsh d) (hsh e) (.inr ⟨_, _, rfl, .inr (.inl rfl)⟩) (.inr ⟨_, _, rfl, .inr (.inl rfl)⟩) h
      have h2 := h1.2
      simp only [List.cons_append, List.nil_append, List.cons.injEq, true_and] at h2
      have h3 := hl (k :: ks) (u :: us) r r' ih (List.append_cancel_left h2)
      refine ⟨?_, h3.2⟩
      simp only [RTree.map, h1.1, h3.1]

/-- **C31** trees with the same string have the same shape and the same renderings of data; if different data
have different renderings, they are equal. -/
theorem c31_injective {sh : α → List Char} (hsh : ∀ d, Plain (sh d)) {t u : RTree α} (h : render sh t = render sh u) :
    t.map sh = u.map sh := by
  have := render_split hsh t u [] [] (.inl rfl) (.inl rfl) (by simpa using h)
  exact this.1

theorem c31_injective_forest {sh : α → List Char} (hsh : ∀ d, Plain (sh d)) {ts us : List (RTree α)}
    (h : renderForest sh ts = renderForest sh us) : mapL sh ts = mapL sh us := by
  -- a forest prints like a tree whose root prints nothing, except for `()`
  cases ts with
  | nil =>
    cases us with
    | nil => rfl
    | cons u us => simp [renderForest] at h
  | cons t ts =>
    cases us with
    | nil => simp [renderForest] at h
    | cons u us =>
      have key : ∀ ts us : List (RTree α), renderL sh ts ++ [')'] = renderL sh us ++ [')'] → mapL sh ts = mapL sh us := by
        intro ts
        induction ts with
        | nil =>
          intro us h
          cases us with
          | nil => rfl
          | cons u us =>
            exfalso
            apply render_head hsh u (renderL sh us ++ [')'])
            simp only [renderL, List.nil_append, List.append_assoc] at h
            rw [show (render sh u ++ ' ' :: (renderL sh us ++ [')'])) = [')'] from h.symm]
            rfl
        | cons t ts ihl =>
          intro us h
          cases us with
          | nil =>
            exfalso
            apply render_head hsh t (renderL sh ts ++ [')'])
            simp only [renderL, List.nil_append, List.append_assoc] at h
            rw [show (render sh t ++ ' ' :: (renderL sh ts ++ [')'])) = [')'] from h]
            rfl
          | cons u us =>
            simp only [renderL, List.append_assoc] at h
            have h1 := render_split hsh t u (' ' :: (renderL sh ts ++ [')'])) (' ' :: (renderL sh us ++ [')']))
              (.inr ⟨_, rfl⟩) (.inr ⟨_, rfl⟩) h
            have h2 := h1.2
            simp only [List.cons.injEq, true_and] at h2
            simp [h1.1, ihl us h2]
      apply key
      simp only [renderForest, List.append_assoc] at h
      simpa using h

mutual
theorem map_injective {β : Type} {f : α → β} (hf : ∀ d e, f d = f e → d = e) : ∀ t u : RTree α, t.map f = u.map f → t = u
  | node d ks, node e us, h => by
    simp at h
    rw [hf d e h.1, mapL_injective hf ks us h.2]
theorem mapL_injective {β : Type} {f : α → β} (hf : ∀ d e, f d = f e → d = e) : ∀ ts us : List (RTree α), mapL f ts = mapL f us → ts = us
  | [], [], _ => rfl
  | [], _ :: _, h => by simp at h
  | _ :: _, [], h => by simp at h
  | t :: ts, u :: us, h => by
    simp at h
    rw [map_injective hf t u h.1, mapL_injective hf ts us h.2]
end

/-- **C31** different trees have different strings, different forests too. -/
theorem c31_unambiguous {sh : α → List Char} (hsh : ∀ d, Plain (sh d)) (hinj : ∀ d e, sh d = sh e → d = e) :
    (∀ t u : RTree α, render sh t = render sh u → t = u) ∧
    (∀ ts us : List (RTree α), renderForest sh ts = renderForest sh us → ts = us) :=
  ⟨fun t u h => map_injective hinj t u (c31_injective hsh h),
   fun ts us h => mapL_injective hinj ts us (c31_injective_forest hsh h)⟩

/-! ### Non-vacuity -/

/-- Unary rendering of numbers. -/
def unary (n : Nat) : List Char := List.replicate n 'i'

example : render unary (.node 1 [.node 2 [.node 0 []], .node 3 []]) = "i( ii(  ) iii )".toList := by rfl
example : renderForest unary [] = "()".toList := by rfl
example : renderForest unary [.node 1 [], .node 2 []] = "( i ii )".toList := by rfl

example : (∀ d, Plain (unary d)) ∧ ∀ d e, unary d = unary e → d = e := by
  refine ⟨fun d c hc => ?_, fun d e h => ?_⟩
  · have := (List.mem_replicate.mp hc).2; subst this; decide
  · have := congrArg List.length h; simpa [unary] using this

/-- Two different nodes of the demo state compared, printed and hashed. -/
example : ∃ a b, demo2.nodeAt 0 [] = some a ∧ demo2.nodeAt 0 [0] = some b ∧
    (∃ r, eqNode (fun d e : Nat => d == e) a b demo2.heap = .ok r demo2.heap ∧ r = false) ∧
    fmtNode unary b demo2.heap = .ok "i( iiiii )".toList demo2.heap := by
  obtain ⟨a, b, r, h1, h2, h3, h4⟩ := c28_eq_structural demo2_reachable demo2_view0 (l := .root) (l' := .child [] 0) rfl demo2_view0 rfl
    (eq := fun d e : Nat => d == e) (by simp)
  obtain ⟨b', h5, h6⟩ := c31_display demo2_reachable (l := .child [] 0) demo2_view0 rfl unary
  have e : b' = b := by rw [h2] at h5; exact (Option.some.inj h5).symm
  subst e
  refine ⟨a, b', h1, h2, ⟨r, h3, ?_⟩, h6⟩
  cases r with
  | false => rfl
  | true => simp at h4

example : TotalCmp (fun a b : Nat => compare a b) :=
  ⟨fun d e => (Nat.compare_swap e d).symm, fun d e f h1 h2 => by
    simp only [ne_eq, Nat.compare_eq_gt, Nat.not_lt] at *; omega⟩

example : RTree.cmp (fun a b : Nat => compare a b) (.node 1 [.node 2 []]) (.node 1 [.node 2 [], .node 0 []]) = .lt := by rfl
example : RTree.cmp (fun a b : Nat => compare a b) (.node 1 [.node 3 []]) (.node 1 [.node 2 [], .node 0 []]) = .gt := by rfl

end Trees
