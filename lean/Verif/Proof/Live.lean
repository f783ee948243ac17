import Verif.Model.Live
import Verif.Props.Ident
/-
Borrows that stay alive: what they refer to depends only on the nodes of the borrowed value.
-/
namespace Trees
set_option linter.unusedSimpArgs false
set_option linter.unusedVariables false
variable {α β : Type}
open RTree

/-! ### Values with addresses -/

theorem kidsAt_mapL (f : α → β) : ∀ (p : Path) (ts : List (RTree α)), kidsAt (mapL f ts) p = (kidsAt ts p).map (mapL f)
  | [], ts => rfl
  | i :: p, ts => by
    have e : (mapL f ts)[i]? = ts[i]?.map (RTree.map f) := by rw [mapL_eq, List.getElem?_map]
    simp only [kidsAt, e]
    cases ts[i]? with
    | none => rfl
    | some t => simp only [Option.map_some, kids_map]; exact kidsAt_mapL f p t.kids

theorem Val.kids_map (f : α → β) (v : Val α) : (v.map f).kids = mapL f v.kids := by
  cases v <;> simp [Val.map, Val.kids, RTree.kids_map]

theorem Val.isIter_map (f : α → β) (v : Val α) : (v.map f).isIter = v.isIter := by cases v <;> rfl

theorem Val.at?_map (f : α → β) (v : Val α) (l : Loc) : (v.map f).at? l = (v.at? l).map (RTree.map f) := by
  cases l with
  | root => cases v <;> simp [Val.map, Val.at?]
  | child q i =>
    simp only [Val.at?, Val.kids_map, kidsAt_mapL]
    cases kidsAt v.kids q with
    | none => rfl
    | some us => simp only [Option.map_some, Option.bind_some, mapL_eq, List.getElem?_map]

theorem Val.above_map (f : α → β) (v : Val α) (l : Loc) : (v.map f).above l = v.above l := by
  cases l with
  | root => rfl
  | child q i => cases v <;> simp only [Val.map, Val.above]

/-- The children of the node at a position. -/
theorem Val.kidsAt_path {v : Val α} {l : Loc} {u : RTree α} (h : v.at? l = some u) : kidsAt v.kids l.full = some u.kids := by
  cases l with
  | root => cases v <;> simp [Val.at?] at h; subst h; rfl
  | child q i =>
    simp only [Val.at?] at h
    simp only [Loc.full, kidsAt_append]
    cases e : kidsAt v.kids q with
    | none => rw [e] at h; simp at h
    | some us =>
      rw [e] at h
      simp only [Option.bind_some] at h ⊢
      simp [kidsAt, h]

/-- An iterator before nodes given with their addresses. -/
def ItL (it : RawIter) (us : List (RTree (Addr × α))) : Prop :=
  it.len = us.length ∧ (us ≠ [] → it.curr = us.head?.map fun u => u.data.1)

/-- Neighbouring nodes of a value, or one node. -/
def Lies (v : Val β) (us : List (RTree β)) : Prop :=
  (∃ l u, v.at? l = some u ∧ (us = [u] ∨ us = [])) ∨ ∃ p ws, kidsAt v.kids p = some ws ∧ us <:+ ws

/-- What a breadth-first iteration over nodes given with addresses visits. -/
def seenL (us : List (RTree (Addr × α))) : List (α × Nat × Nat) := (qbfs us).map fun u => visit (u.map Prod.snd)

theorem seenL_eq (us : List (RTree (Addr × α))) : seenL us = bfsVisits (mapL Prod.snd us) := by
  simp [seenL, bfsVisits, levelOrder_eq, qbfs_mapL, Function.comp_def]

/-- `ItL` for the addresses alone. -/
def ItW (it : RawIter) (ws : List (RTree Addr)) : Prop := it.len = ws.length ∧ (ws ≠ [] → it.curr = ws.head?.map data)

theorem ItL.w {it : RawIter} {us : List (RTree (Addr × α))} : ItL it us ↔ ItW it (mapL Prod.fst us) := by
  cases us with
  | nil => simp [ItL, ItW]
  | cons u us => cases u; simp [ItL, ItW, mapL_eq]

/-- A place of a mutable visit, and the node there. -/
def PlaceOf (w : Val Addr) (p : Loc × Nat × Nat) (u : RTree Addr) : Prop :=
  w.at? p.1 = some u ∧ p.2 = (u.kids.length, countL u.kids)

/-- A borrow and what it stands for. -/
inductive Holds (m : Machine α) : Option (Var × Live) → Option (Var × View α) → Prop
  | none : Holds m none none
  | node {x v l u} : m.lview x = some v → v.at? l = some u →
      Holds m (some (x, .node u.data.1)) (some (x, .node (v.map Prod.snd) l))
  | kids {x v p ws it k} : m.lview x = some v → kidsAt v.kids p = some ws → ItL it (ws.drop k) →
      Holds m (some (x, .kids it)) (some (x, .kids (v.map Prod.snd) p k))
  | bfs {x v q uss} : m.lview x = some v → List.Forall₂ ItL q uss → (∀ us ∈ uss, Lies v us) →
      Holds m (some (x, .bfs q)) (some (x, .bfs (seenL uss.flatten)))
  | item {x v l w} : m.lview x = some v → v.isIter = false → (v.map Prod.fst).at? l = some w →
      Holds m (some (x, .item w.data)) (some (x, .item l))
  | bfsMut {x v q wss ps} : m.lview x = some v → v.isIter = false → List.Forall₂ ItW q wss →
      (∀ ws ∈ wss, Lies (v.map Prod.fst) ws) → List.Forall₂ (PlaceOf (v.map Prod.fst)) ps (qbfs wss.flatten) →
      Holds m (some (x, .bfsMut q)) (some (x, .bfsMut ps))

theorem Holds.excl {m : Machine α} {x y : Var} {l : Live} {s : View α} (h : Holds m (some (x, l)) (some (y, s))) : x = y ∧ l.excl = s.excl := by
  cases h <;> exact ⟨rfl, rfl⟩

/-- Neighbouring nodes in the addresses alone are neighbouring nodes. -/
theorem Lies.lift {f : α → β} {v : Val α} {ws : List (RTree β)} (h : Lies (v.map f) ws) : ∃ us, ws = mapL f us ∧ Lies v us := by
  rcases h with ⟨l, w, h1, h2⟩ | ⟨p, ws', h1, h2⟩
  · rw [Val.at?_map, Option.map_eq_some_iff] at h1
    obtain ⟨u, h1, rfl⟩ := h1
    rcases h2 with rfl | rfl
    · exact ⟨[u], by simp [mapL], .inl ⟨l, u, h1, .inl rfl⟩⟩
    · exact ⟨[], by simp [mapL], .inl ⟨l, u, h1, .inr rfl⟩⟩
  · rw [Val.kids_map, kidsAt_mapL, Option.map_eq_some_iff] at h1
    obtain ⟨us, h1, rfl⟩ := h1
    obtain ⟨vs, e⟩ := h2
    rw [mapL_eq] at e
    obtain ⟨a, b, rfl, ha, hb⟩ := List.map_eq_append_iff.mp e.symm
    exact ⟨b, by rw [mapL_eq, hb], .inr ⟨p, _, h1, List.suffix_append _ _⟩⟩

theorem Lies.map {f : α → β} {v : Val α} {us : List (RTree α)} (h : Lies v us) : Lies (v.map f) (mapL f us) := by
  rcases h with ⟨l, u, h1, h2⟩ | ⟨p, ws, h1, h2⟩
  · refine .inl ⟨l, u.map f, by rw [Val.at?_map, h1]; rfl, ?_⟩
    rcases h2 with rfl | rfl
    · exact .inl (by simp [mapL])
    · exact .inr (by simp [mapL])
  · refine .inr ⟨p, mapL f ws, by rw [Val.kids_map, kidsAt_mapL, h1]; rfl, ?_⟩
    obtain ⟨vs, rfl⟩ := h2
    rw [mapL_append]
    exact List.suffix_append _ _

theorem flatten_mapL (f : α → β) : ∀ (uss : List (List (RTree α))), (uss.map (mapL f)).flatten = mapL f uss.flatten
  | [] => by simp [mapL]
  | us :: uss => by simp [flatten_mapL f uss, mapL_append]

/-- Queues of the addresses alone are queues. -/
theorem queue_lift {v : Val (Addr × α)} {q : List RawIter} {wss : List (List (RTree Addr))} (h : List.Forall₂ ItW q wss) :
    (∀ ws ∈ wss, Lies (v.map Prod.fst) ws) →
    ∃ uss : List (List (RTree (Addr × α))), wss = uss.map (mapL Prod.fst) ∧ List.Forall₂ ItL q uss ∧ ∀ us ∈ uss, Lies v us := by
  induction h with
  | nil => intro _; exact ⟨[], rfl, .nil, by simp⟩
  | @cons it ws q wss h1 h ih =>
    intro hl
    obtain ⟨uss, e, g1, g2⟩ := ih fun ws h => hl ws (by simp [h])
    obtain ⟨us, rfl, g3⟩ := (hl ws (by simp)).lift
    refine ⟨us :: uss, by rw [e]; rfl, .cons (ItL.w.mpr h1) g1, ?_⟩
    intro us' h'
    rcases List.mem_cons.mp h' with rfl | h'
    · exact g3
    · exact g2 _ h'

theorem queue_w {v : Val (Addr × α)} {q : List RawIter} {uss : List (List (RTree (Addr × α)))} (h : List.Forall₂ ItL q uss)
    (hl : ∀ us ∈ uss, Lies v us) :
    List.Forall₂ ItW q (uss.map (mapL Prod.fst)) ∧ ∀ ws ∈ uss.map (mapL Prod.fst), Lies (v.map Prod.fst) ws := by
  constructor
  · clear hl
    induction h with
    | nil => exact .nil
    | cons h1 _ ih => exact .cons (ItL.w.mp h1) ih
  · intro ws hw
    obtain ⟨us, h1, rfl⟩ := List.mem_map.mp hw
    exact (hl us h1).map

/-! ### Places -/

theorem kids_lenL (f : α → β) (ts : List (RTree α)) : (mapL f ts).length = ts.length := by simp [mapL_eq]


theorem Loc.ofPath_full (p : Path) : (Loc.ofPath p).full = p := by
  rcases List.eq_nil_or_concat' p with rfl | ⟨q, i, rfl⟩
  · rfl
  · simp [Loc.ofPath, Loc.full]

theorem Loc.full_ofPath (l : Loc) : Loc.ofPath l.full = l := by
  cases l <;> simp [Loc.ofPath, Loc.full]

theorem at_ofPath (v : Val β) (p : Path) (i : Nat) : v.at? (.ofPath (p ++ [i])) = (kidsAt v.kids p).bind (·[i]?) := by
  simp [Loc.ofPath, Val.at?]

theorem qbfs_rel {R : RTree α → RTree β → Prop} (hR : ∀ s u, R s u → List.Forall₂ R s.kids u.kids) : ∀ (n : Nat) {ss : List (RTree α)}
    {us : List (RTree β)}, countL ss ≤ n → List.Forall₂ R ss us → List.Forall₂ R (qbfs ss) (qbfs us) := by
  intro n
  induction n with
  | zero =>
    intro ss us h H
    have := countL_eq_zero (Nat.le_zero.mp h)
    subst this
    cases H
    simp
  | succ n ih =>
    intro ss us h H
    cases H with
    | nil => simp
    | @cons s u ss us h1 H =>
      have h2 : countL (ss ++ s.kids) + 1 = countL (s :: ss) := by simp [count_eq s]; omega
      rw [qbfs_cons, qbfs_cons]
      exact .cons h1 (ih (by omega) (List.rel_append H (hR s u h1)))

/-- A node given with its path, and the node there. -/
def AtPath (v : Val (Addr × α)) (base : Path) (s : RTree (Path × α)) (u : RTree (Addr × α)) : Prop :=
  ∃ p, s = mapPath (fun p d => (p, d)) p (u.map Prod.snd) ∧ v.at? (.ofPath (base ++ p)) = some u

theorem atPath_list {v : Val (Addr × α)} {base p : Path} : ∀ (us : List (RTree (Addr × α))) (i : Nat),
    (∀ j u, us[j]? = some u → v.at? (.ofPath (base ++ (p ++ [i + j]))) = some u) →
    List.Forall₂ (AtPath v base) (mapPathL (fun p d => (p, d)) p i (mapL Prod.snd us)) us
  | [], i, _ => by simp [mapL, mapPathL]
  | u :: us, i, h => by
    simp only [mapL, mapPathL]
    refine .cons ⟨p ++ [i], rfl, by simpa using h 0 u rfl⟩ (atPath_list us (i + 1) fun j w hw => ?_)
    have := h (j + 1) w (by simpa using hw)
    rwa [show i + (j + 1) = i + 1 + j by omega] at this

theorem atPath_kids {v : Val (Addr × α)} {base : Path} (s : RTree (Path × α)) (u : RTree (Addr × α)) (h : AtPath v base s u) :
    List.Forall₂ (AtPath v base) s.kids u.kids := by
  obtain ⟨p, rfl, h⟩ := h
  have hk := Val.kidsAt_path h
  rw [Loc.ofPath_full] at hk
  have : (mapPath (fun p d => (p, d)) p (u.map Prod.snd)).kids = mapPathL (fun p d => (p, d)) p 0 (mapL Prod.snd u.kids) := by
    cases u; simp [mapPath]
  rw [this]
  refine atPath_list u.kids 0 fun j w hw => ?_
  rw [← List.append_assoc, at_ofPath, hk]
  simpa using hw

theorem count_mapPath (p : Path) (t : RTree α) : (mapPath (fun p d => (p, d)) p t).count = t.count := by
  have := mapPath_snd p t
  rw [mapPath_eq] at this
  conv_rhs => rw [← this]
  generalize mapPath (fun p d => (p, d)) p t = s
  cases s
  simp [← mapL_eq, countL_mapL]

theorem mutVisits_places {v : Val (Addr × α)} {base : Path} {ss : List (RTree (Path × α))} {us : List (RTree (Addr × α))}
    (h : List.Forall₂ (AtPath v base) ss us) : List.Forall₂ (PlaceOf (v.map Prod.fst)) (mutVisits base ss) (qbfs (mapL Prod.fst us)) := by
  have := qbfs_rel (fun s u h => atPath_kids s u h) _ (Nat.le_refl _) h
  rw [mutVisits, levelOrder_eq, qbfs_mapL]
  generalize qbfs ss = A at this ⊢
  generalize qbfs us = B at this ⊢
  induction this with
  | nil => exact .nil
  | @cons s u ss us h1 _ ih =>
    refine .cons ?_ ih
    have hk := (atPath_kids s u h1).length_eq
    obtain ⟨p, rfl, h2⟩ := h1
    have hp : (mapPath (fun p d => (p, d)) p (u.map Prod.snd)).data.1 = p := by cases u; simp [mapPath]
    refine ⟨?_, ?_⟩
    · simp only [hp, Val.at?_map, h2, Option.map_some]
    · simp only [hk, count_mapPath]
      cases u; simp only [RTree.map, kids_node, RTree.count, countL_mapL, kids_lenL, Nat.add_sub_cancel]

/-! ### Addresses and the heap -/

theorem denL_lab {h : Heap α} {K : Addr → List Addr} : ∀ {cs : List Addr} {ws : List (RTree (Addr × α))}, DenL h.lab K cs ws →
    cs = ws.map fun u => u.data.1
  | [], ws, d => by simp at d; simp [d]
  | c :: cs, [], d => by simp at d
  | c :: cs, .node q ks :: ws, d => by
    rw [DenL_cons, Den_node] at d
    rw [denL_lab d.2, (Heap.lab_some.mp d.1.1).1.symm]; rfl

section
variable {m : Machine α} {K : Addr → List Addr} {x : Var} {v : Val (Addr × α)}

theorem MInv.lview_some (M : MInv m K) (hx : m.lview x = some v) : ∃ hd, m.env x = some hd ∧ HOK m.heap hd ∧ HDenV m.heap.lab K hd v := by
  cases e : m.env x with
  | none => simp [Machine.lview, e] at hx
  | some hd =>
    obtain ⟨w, e1, e2⟩ := M.lview_den e
    rw [e1] at hx
    obtain rfl := Option.some.inj hx
    exact ⟨hd, rfl, M.hnd x hd e, e2⟩

theorem HDenV.kids {w : Addr → Option β} {hd : Handle} {v : Val β} (h : HDenV w K hd v) : DenL w K (K hd.addr) v.kids := by
  cases hd <;> cases v <;> simp only [HDenV] at h
  · rename_i t; cases t; rw [Den_node] at h; exact h.2
  · exact h
  · exact h

theorem kidsAt_lab (M : MInv m K) {hd : Handle} (ho : HOK m.heap hd) (hd1 : HDenV m.heap.lab K hd v) {p : Path} {ws : List (RTree (Addr × α))}
    (hw : kidsAt v.kids p = some ws) : ∃ n, resolve K hd.addr p = some n ∧ m.heap.Used n ∧ DenL m.heap.lab K (K n) ws := by
  have := resolve_kidsAt (p := p) hd1.kids
  cases e : resolve K hd.addr p with
  | none => rw [e] at this; simp only at this; rw [this] at hw; cases hw
  | some n =>
    rw [e] at this
    obtain ⟨us, h1, h2⟩ := this
    rw [h1] at hw
    obtain rfl := Option.some.inj hw
    exact ⟨n, rfl, M.inv.reach_used ho.used (resolve_reach e), h2⟩

theorem at_lab (M : MInv m K) {hd : Handle} (ho : HOK m.heap hd) (hd1 : HDenV m.heap.lab K hd v) {l : Loc} {u : RTree (Addr × α)}
    (hu : v.at? l = some u) : m.heap.Used u.data.1 ∧ Den m.heap.lab K u.data.1 u ∧ resolve K hd.addr l.full = some u.data.1 := by
  cases l with
  | root =>
    cases v with
    | tree t =>
      obtain rfl : t = u := by simpa [Val.at?] using hu
      cases hd with
      | tree r =>
        cases t with
        | node q ks =>
          have h2 := hd1
          simp only [HDenV, Den_node] at h2
          have h3 := (Heap.lab_some.mp h2.1).1
          simp only [data_node]
          rw [h3]
          exact ⟨ho.used, hd1, rfl⟩
      | forest r => exact hd1.elim
      | iter r => exact hd1.elim
    | forest _ => simp [Val.at?] at hu
    | iter _ => simp [Val.at?] at hu
  | child q i =>
    simp only [Val.at?] at hu
    cases e : kidsAt v.kids q with
    | none => rw [e] at hu; simp at hu
    | some us =>
      rw [e] at hu
      simp only [Option.bind_some] at hu
      obtain ⟨n, h1, h2, h3⟩ := kidsAt_lab M ho hd1 e
      rcases h3.get i with ⟨g1, g2⟩ | ⟨c, t, g1, g2, g3⟩
      · rw [g2] at hu; cases hu
      · rw [g2] at hu
        obtain rfl := Option.some.inj hu
        have hc : c = t.data.1 := by
          have := denL_lab h3
          rw [this, List.getElem?_map, g2] at g1
          exact (Option.some.inj g1).symm
        subst hc
        refine ⟨M.inv.used_of_mem (List.mem_of_getElem? g1), g3, ?_⟩
        simp only [Loc.full, resolve_append, h1, Option.bind_some, resolve, g1]

/-- A position that can be resolved holds a node, and one that cannot does not. -/
theorem at_resolve (M : MInv m K) {hd : Handle} (ho : HOK m.heap hd) (hd1 : HDenV m.heap.lab K hd v) (q : Path) (i : Nat) :
    match resolve K hd.addr (q ++ [i]) with
    | none => v.at? (.child q i) = none
    | some a => ∃ u, v.at? (.child q i) = some u ∧ u.data.1 = a := by
  have := resolve_kidsAt (p := q) hd1.kids
  cases e : v.at? (.child q i) with
  | some u =>
    have h := (at_lab M ho hd1 e).2.2
    simp only [Loc.full] at h
    rw [h]
    exact ⟨u, rfl, rfl⟩
  | none =>
    simp only [Val.at?] at e
    rw [resolve_append]
    cases e2 : resolve K hd.addr q with
    | none => rfl
    | some n =>
      rw [e2] at this
      obtain ⟨us, h1, h2⟩ := this
      rw [h1] at e
      simp only [Option.bind_some] at e
      rcases h2.get i with ⟨g1, g2⟩ | ⟨c, t, g1, g2, g3⟩
      · simp [resolve, g1]
      · rw [g2] at e; cases e

/-- Iterators in the value stand before their nodes in the heap. -/
theorem ItL.at (M : MInv m K) (hx : m.lview x = some v) {it : RawIter} {us : List (RTree (Addr × α))} (h : ItL it us) (hp : Lies v us) :
    it.At m.heap (us.map fun u => u.data.1) ∧ ∀ u ∈ us, m.heap.Used u.data.1 ∧ Den m.heap.lab K u.data.1 u := by
  obtain ⟨hd, -, ho, hd1⟩ := M.lview_some hx
  have hc : us.map (fun u => u.data.1) ≠ [] → it.curr = (us.map fun u => u.data.1).head? := by
    intro hne
    rw [h.2 (by simpa using hne), List.head?_map]
  rcases hp with ⟨l, u, h1, rfl | rfl⟩ | ⟨p, ws, h1, h2⟩
  · obtain ⟨g1, g2, -⟩ := at_lab M ho hd1 h1
    refine ⟨⟨by simpa using h.1, hc, by simpa using g1.1, ?_⟩, by simpa using ⟨g1, g2⟩⟩
    exact ⟨m.heap.prev u.data.1, m.heap.next u.data.1, by simp [Links]⟩
  · exact ⟨⟨by simpa using h.1, hc, by simp, none, none, trivial⟩, by simp⟩
  · obtain ⟨n, -, g2, g3⟩ := kidsAt_lab M ho hd1 h1
    obtain ⟨vs, rfl⟩ := h2
    have e := denL_lab g3
    have hl := M.inv.l.links n g2
    rw [e, List.map_append, links_append] at hl
    have hu : ∀ u ∈ us, m.heap.Used u.data.1 ∧ Den m.heap.lab K u.data.1 u := by
      intro u hu
      have hm : u.data.1 ∈ K n := by rw [e]; exact List.mem_map_of_mem (by simp [hu])
      refine ⟨M.inv.used_of_mem hm, ?_⟩
      obtain ⟨i, hi⟩ := List.mem_iff_getElem?.mp (show u ∈ vs ++ us by simp [hu])
      rcases g3.get i with ⟨k1, k2⟩ | ⟨c, t, k1, k2, k3⟩
      · rw [k2] at hi; cases hi
      · rw [k2] at hi
        obtain rfl := Option.some.inj hi
        rw [e, List.getElem?_map, k2] at k1
        obtain rfl := Option.some.inj k1
        exact k3
    refine ⟨⟨by simpa using h.1, hc, ?_, _, _, hl.2⟩, hu⟩
    intro c hc
    obtain ⟨u, h3, rfl⟩ := List.mem_map.mp hc
    exact (hu u h3).1.1

theorem ItL.next_nil {it : RawIter} (h : ItL it ([] : List (RTree (Addr × α)))) (hp : Heap α) : it.next hp = .ok (Option.none, it) hp := by
  obtain ⟨c, n⟩ := it
  obtain rfl : n = 0 := by simpa using h.1
  exact RawIter.next_zero c hp

theorem ItL.next_cons (M : MInv m K) (hx : m.lview x = some v) {it : RawIter} {u : RTree (Addr × α)} {us : List (RTree (Addr × α))}
    (h : ItL it (u :: us)) (hp : Lies v (u :: us)) :
    ∃ it', it.next m.heap = .ok (some u.data.1, it') m.heap ∧ ItL it' us := by
  have := (h.at M hx hp).1
  rw [List.map_cons] at this
  obtain ⟨it', e, a⟩ := this.next_cons
  refine ⟨it', e, by simpa using a.1, fun hne => ?_⟩
  rw [a.2.1 (by simpa using hne), List.head?_map]

theorem Lies.tail {u : RTree (Addr × α)} {us : List (RTree (Addr × α))} (h : Lies v (u :: us)) : Lies v us := by
  rcases h with ⟨l, w, h1, h2⟩ | ⟨p, ws, h1, h2⟩
  · rcases h2 with h2 | h2
    · simp only [List.cons.injEq] at h2; exact .inl ⟨l, w, h1, .inr h2.2⟩
    · simp at h2
  · exact .inr ⟨p, ws, h1, (List.suffix_cons u us).trans h2⟩

theorem Lies.kids {u : RTree (Addr × α)} {us : List (RTree (Addr × α))} (h : Lies v (u :: us)) : Lies v u.kids := by
  rcases h with ⟨l, w, h1, h2⟩ | ⟨p, ws, h1, h2⟩
  · rcases h2 with h2 | h2
    · simp only [List.cons.injEq] at h2
      obtain ⟨rfl, -⟩ := h2
      exact .inr ⟨_, _, Val.kidsAt_path h1, List.suffix_refl _⟩
    · simp at h2
  · obtain ⟨vs, rfl⟩ := h2
    have : v.at? (.child p vs.length) = some u := by simp [Val.at?, h1]
    exact .inr ⟨_, _, Val.kidsAt_path this, List.suffix_refl _⟩

theorem iter_lab (M : MInv m K) {a : Addr} (ha : m.heap.Used a) {ws : List (RTree (Addr × α))} (hd : DenL m.heap.lab K (K a) ws) :
    ∃ it, iter a m.heap = .ok it m.heap ∧ ItL it ws := by
  obtain ⟨it, e, hA⟩ := iter_at M.inv ha
  have := denL_lab hd
  rw [this] at hA
  exact ⟨it, e, by simpa using hA.1, fun hne => by rw [hA.2.1 (by simpa using hne), List.head?_map]⟩

/-- What a node shows. -/
theorem node_lab (M : MInv m K) {u : RTree (Addr × α)} (ha : m.heap.Used u.data.1) (hd : Den m.heap.lab K u.data.1 u) :
    m.heap.val u.data.1 = some u.data.2 ∧ DenL m.heap.lab K (K u.data.1) u.kids ∧
      m.heap.size u.data.1 = ⟨u.kids.length, countL u.kids⟩ := by
  cases u with
  | node q ks =>
    simp only [data_node, kids_node] at *
    rw [Den_node] at hd
    exact ⟨(Heap.lab_some.mp hd.1).2, hd.2, M.inv.sz_den ha hd.2⟩

/-- One step of a breadth-first iteration. -/
theorem splitted_lab (M : MInv m K) (hx : m.lview x = some v) : ∀ {q : List RawIter} {uss : List (List (RTree (Addr × α)))},
    List.Forall₂ ItL q uss → (∀ us ∈ uss, Lies v us) →
    ∃ q' uss', List.Forall₂ ItL q' uss' ∧ (∀ us ∈ uss', Lies v us) ∧
      splittedNext refSrc q m.heap =
        .ok ((qbfs uss.flatten).head?.map (fun u => (u.data.2, ⟨u.kids.length, countL u.kids⟩)), q') m.heap ∧
      qbfs uss'.flatten = (qbfs uss.flatten).tail := by
  intro q uss H
  induction H with
  | nil => intro _; exact ⟨[], [], .nil, by simp, by simp [splittedNext], by simp⟩
  | @cons it us q uss h1 H ih =>
    intro hp
    cases us with
    | nil =>
      obtain ⟨q', uss', g1, g2, g3, g4⟩ := ih fun us hus => hp us (by simp [hus])
      refine ⟨q', uss', g1, g2, ?_, by simpa using g4⟩
      have e : splittedNext refSrc (it :: q) m.heap = splittedNext refSrc q m.heap := by
        rw [splittedNext, Trees.M.bind_apply, show refSrc.next it m.heap = .ok (Option.none, it) m.heap from h1.next_nil _, Res.bind_ok]
        rfl
      rw [e, g3, List.flatten_cons, List.nil_append]
    | cons u us =>
      have hpu := hp (u :: us) (by simp)
      obtain ⟨it', e1, h2⟩ := h1.next_cons M hx hpu
      obtain ⟨-, hU⟩ := h1.at M hx hpu
      obtain ⟨hu, hd⟩ := hU u (by simp)
      obtain ⟨k1, k2, k3⟩ := node_lab M hu hd
      obtain ⟨ch, e2, h3⟩ := iter_lab M hu k2
      refine ⟨it' :: q ++ [ch], us :: uss ++ [u.kids], List.rel_append (.cons h2 H) (.cons h3 .nil), ?_, ?_, ?_⟩
      · intro ws hw
        simp only [List.cons_append, List.mem_cons, List.mem_append, List.not_mem_nil, or_false] at hw
        rcases hw with rfl | hw | rfl
        · exact hpu.tail
        · exact hp ws (by simp [hw])
        · exact hpu.kids
      · simp only [splittedNext, Trees.M.bind_apply, refSrc, e1, Res.bind_ok, dataRef_ok hu.1 k1, e2, getSize_ok hu.1, k3, Trees.M.pure_apply,
          List.flatten_cons, List.cons_append, qbfs_cons, List.head?_cons, Option.map_some, h3.1]
      · simp [qbfs_cons]

/-- One step of a mutable breadth-first iteration. -/
theorem splitted_mut (M : MInv m K) (hx : m.lview x = some v) : ∀ {q : List RawIter} {uss : List (List (RTree (Addr × α)))},
    List.Forall₂ ItL q uss → (∀ us ∈ uss, Lies v us) →
    ∃ q' uss', List.Forall₂ ItL q' uss' ∧ (∀ us ∈ uss', Lies v us) ∧
      splittedNext mutSrc q m.heap =
        .ok ((qbfs uss.flatten).head?.map (fun u => (u.data.1, ⟨u.kids.length, countL u.kids⟩)), q') m.heap ∧
      qbfs uss'.flatten = (qbfs uss.flatten).tail := by
  intro q uss H
  induction H with
  | nil => intro _; exact ⟨[], [], .nil, by simp, by simp [splittedNext], by simp⟩
  | @cons it us q uss h1 H ih =>
    intro hp
    cases us with
    | nil =>
      obtain ⟨q', uss', g1, g2, g3, g4⟩ := ih fun us hus => hp us (by simp [hus])
      refine ⟨q', uss', g1, g2, ?_, by simpa using g4⟩
      have e : splittedNext mutSrc (it :: q) m.heap = splittedNext mutSrc q m.heap := by
        rw [splittedNext, Trees.M.bind_apply, show mutSrc.next it m.heap = .ok (Option.none, it) m.heap from h1.next_nil _, Res.bind_ok]
        rfl
      rw [e, g3, List.flatten_cons, List.nil_append]
    | cons u us =>
      have hpu := hp (u :: us) (by simp)
      obtain ⟨it', e1, h2⟩ := h1.next_cons M hx hpu
      obtain ⟨-, hU⟩ := h1.at M hx hpu
      obtain ⟨hu, hd⟩ := hU u (by simp)
      obtain ⟨k1, k2, k3⟩ := node_lab M hu hd
      obtain ⟨ch, e2, h3⟩ := iter_lab M hu k2
      refine ⟨it' :: q ++ [ch], us :: uss ++ [u.kids], List.rel_append (.cons h2 H) (.cons h3 .nil), ?_, ?_, ?_⟩
      · intro ws hw
        simp only [List.cons_append, List.mem_cons, List.mem_append, List.not_mem_nil, or_false] at hw
        rcases hw with rfl | hw | rfl
        · exact hpu.tail
        · exact hp ws (by simp [hw])
        · exact hpu.kids
      · simp only [splittedNext, Trees.M.bind_apply, mutSrc, e1, Res.bind_ok, dataRef_ok hu.1 k1, e2, getSize_ok hu.1, k3, Trees.M.pure_apply,
          List.flatten_cons, List.cons_append, qbfs_cons, List.head?_cons, Option.map_some, h3.1]
      · simp [qbfs_cons]
end

end Trees

namespace Trees
set_option linter.unusedSimpArgs false
set_option linter.unusedVariables false
variable {α β : Type}
open RTree

/-! ### Calls leave borrowed values alone -/

theorem spec_writes (S : Store α) (op : Op α) (z : Var) (hz : z ∉ op.writes) (hf : z < S.fresh) :
    (Proof.stateOr S (specStep S op)).vars z = S.vars z := by
  have hne : z ≠ S.fresh := Nat.ne_of_lt hf
  cases op <;> simp only [Op.writes, List.mem_cons, List.not_mem_nil, or_false, not_or, not_false_eq_true] at hz <;>
    simp only [specStep, Store.takeTree, Store.takeForest, Store.onKids, Store.onNode] <;>
    (repeat' split) <;>
    simp_all [Proof.stateOr, Store.bind, Store.set, Store.drop, Store.setKids]

theorem tag_writes (S : Store (Tagged α)) (op : Op α) (z : Var) (hz : z ∉ op.writes) (hf : z < S.fresh) :
    (Proof.stateOr S (tagStep S op)).vars z = S.vars z := by
  cases op with
  | abandon x =>
    simp only [Op.writes, List.mem_cons, List.not_mem_nil, or_false] at hz
    simp only [tagStep]
    have hne : z ≠ S.fresh := Nat.ne_of_lt hf
    split <;> simp [Proof.stateOr, Store.bind, Store.set, hz, hne]
  | _ => simp only [tagStep]; refine spec_writes S _ z ?_ hf; exact hz

/-- A call that only reads the value in `z` leaves every node of it where it is. -/
theorem writes_frame {m m' : Machine α} (hr : Reachable m) {op : Op α} {z : Var} (hz : z ∉ op.writes) (hf : z < m.fresh) :
    (∀ o, step m op = .ok m' o → m'.lview z = m.lview z) ∧ (step m op = .panic m' → m'.lview z = m.lview z) := by
  have hfr := tag_writes (m.tags m) op z hz hf
  obtain ⟨h1, h2, _⟩ := c48_step hr op
  constructor
  · intro o h
    obtain ⟨S, o', e, hv, _⟩ := h1 m' o h
    rw [e] at hfr
    exact Proof.tags_lview hr (by rw [← hv]; exact hfr)
  · intro h
    obtain ⟨S, e, hv, _⟩ := h2 m' h
    rw [e] at hfr
    exact Proof.tags_lview hr (by rw [← hv]; exact hfr)

/-! ### The machine and its specification -/

structure LOK (L : LMachine α) (S : LStore α) : Prop where
  reach : Reachable L.m
  store : S.store = L.m.store
  made : S.made = L.made
  ref : ∀ i, Holds L.m (L.refs i) (S.refs i)
  fresh : ∀ i, L.made ≤ i → L.refs i = none
  excl : ∀ i j x l l', L.refs i = some (x, l) → L.refs j = some (x, l') → l.excl = l'.excl

/-- Same results, and states that correspond, with machine `m`. -/
def LSame (m : Machine α) (p : LMachine α × LOut α) (q : LStore α × LOut α) : Prop := LOK p.1 q.1 ∧ p.2 = q.2 ∧ p.1.m = m

section
variable {L : LMachine α} {S : LStore α}

theorem LOK.same (H : LOK L S) (o : LOut α) : LSame L.m (L, o) (S, o) := ⟨H, rfl, rfl⟩

theorem LOK.new (H : LOK L S) {x : Var} {l : Live} {s : View α} (h : Holds L.m (some (x, l)) (some (x, s)))
    (hx : ∀ j l', L.refs j = some (x, l') → l'.excl = l.excl) : LSame L.m (L.new x l) (S.new x s) := by
  refine ⟨⟨H.reach, H.store, by simp [LMachine.new, LStore.new, H.made], fun i => ?_, fun i hi => ?_, ?_⟩, by simp [LMachine.new, LStore.new, H.made], rfl⟩
  · simp only [LMachine.new, LStore.new, H.made]
    by_cases hi : i = L.made
    · simpa [hi] using h
    · simpa [hi] using H.ref i
  · simp only [LMachine.new] at hi ⊢
    rw [if_neg (by omega)]
    exact H.fresh i (by omega)
  · intro i j y k k' h1 h2
    simp only [LMachine.new] at h1 h2
    split at h1 <;> split at h2
    · simp only [Option.some.injEq, Prod.mk.injEq] at h1 h2; rw [← h1.2, ← h2.2]
    · simp only [Option.some.injEq, Prod.mk.injEq] at h1; rw [← h1.2]; rw [← h1.1] at h2; exact (hx _ _ h2).symm
    · simp only [Option.some.injEq, Prod.mk.injEq] at h2; rw [← h2.2]; rw [← h2.1] at h1; exact hx _ _ h1
    · exact H.excl _ _ _ _ _ h1 h2

theorem LOK.put (H : LOK L S) {i : Nat} (hi : i < L.made) {b : Option (Var × Live)} {s : Option (Var × View α)} (h : Holds L.m b s)
    (hb : ∀ x l, b = some (x, l) → ∃ l', L.refs i = some (x, l') ∧ l'.excl = l.excl) : LOK (L.put i b) (S.put i s) := by
  refine ⟨H.reach, H.store, H.made, fun j => ?_, fun j hj => ?_, ?_⟩
  · simp only [LMachine.put, LStore.put]
    by_cases e : j = i
    · simpa [e] using h
    · simpa [e] using H.ref j
  · simp only [LMachine.put] at hj ⊢
    rw [if_neg (by omega)]
    exact H.fresh j hj
  · intro j k y l l' h1 h2
    simp only [LMachine.put] at h1 h2
    have key : ∀ j l, (if j = i then b else L.refs j) = some (y, l) → ∃ j l', L.refs j = some (y, l') ∧ l'.excl = l.excl := by
      intro j l h
      split at h
      · obtain ⟨l', g⟩ := hb _ _ h; exact ⟨i, l', g⟩
      · exact ⟨j, l, h, rfl⟩
    obtain ⟨j1, l1, e1, g1⟩ := key _ _ h1
    obtain ⟨j2, l2, e2, g2⟩ := key _ _ h2
    rw [← g1, ← g2]
    exact H.excl _ _ _ _ _ e1 e2

theorem LOK.lt (H : LOK L S) {i : Nat} {b : Var × Live} (h : L.refs i = some b) : i < L.made := by
  refine Nat.lt_of_not_le fun hi => ?_
  rw [H.fresh i hi] at h; cases h

theorem LOK.puts (H : LOK L S) {i : Nat} {x : Var} {l l' : Live} {s : View α} (hL : L.refs i = some (x, l))
    (h : Holds L.m (some (x, l')) (some (x, s))) (he : l.excl = l'.excl) : LOK (L.put i (some (x, l'))) (S.put i (some (x, s))) := by
  refine H.put (H.lt hL) h fun y b e => ?_
  simp only [Option.some.injEq, Prod.mk.injEq] at e
  obtain ⟨rfl, rfl⟩ := e
  exact ⟨_, hL, he⟩


theorem LOK.var (H : LOK L S) (x : Var) : S.store.vars x = (L.m.lview x).map (Val.map Prod.snd) := by
  rw [H.store, c48_view H.reach]; rfl

theorem LMachine.run_read (L : LMachine α) {c : M α β} {b : β} (e : c L.m.heap = .ok b L.m.heap) (k : β → LMachine α → LMachine α × LOut α) :
    L.run c k = k b L := by simp only [LMachine.run, e]

/-- Which variables are borrowed. -/
theorem LOK.borrowed (H : LOK L S) (x : Var) : borrowed L.refs L.made x = borrowed S.refs S.made x := by
  simp only [Trees.borrowed, H.made]
  congr 1
  funext i
  have := H.ref i
  cases h1 : L.refs i <;> cases h2 : S.refs i <;> rw [h1, h2] at this <;> cases this <;> rfl

theorem LOK.locked (H : LOK L S) (x : Var) : locked Live.excl L.refs L.made x = locked View.excl S.refs S.made x := by
  simp only [Trees.locked, H.made]
  congr 1
  funext i
  have := H.ref i
  cases h1 : L.refs i <;> cases h2 : S.refs i <;> rw [h1, h2] at this <;> cases this <;> rfl

theorem LOK.clash (H : LOK L S) (op : LOp α) : clash Live.excl L.refs L.made op = clash View.excl S.refs S.made op := by
  have h1 : Trees.borrowed L.refs L.made = Trees.borrowed S.refs S.made := funext H.borrowed
  have h2 : Trees.locked Live.excl L.refs L.made = Trees.locked View.excl S.refs S.made := funext H.locked
  cases op <;> simp only [Trees.clash, h1, h2]

theorem LOK.unborrowed (H : LOK L S) {x : Var} (h : Trees.borrowed L.refs L.made x = false) (j : Nat) (l : Live) : L.refs j ≠ some (x, l) := by
  intro e
  simp only [Trees.borrowed, List.any_eq_false, List.mem_range] at h
  exact h j (H.lt e) (by simp [e])

theorem LOK.unlocked (H : LOK L S) {x : Var} (h : Trees.locked Live.excl L.refs L.made x = false) (j : Nat) (l : Live)
    (e : L.refs j = some (x, l)) : l.excl = false := by
  simp only [Trees.locked, List.any_eq_false, List.mem_range] at h
  have := h j (H.lt e)
  simpa [e] using this

theorem LOK.live_var (H : LOK L S) {i : Nat} {x : Var} {l : Live} (h : L.refs i = some (x, l)) : ∃ v, L.m.lview x = some v := by
  have := H.ref i
  rw [h] at this
  revert this
  generalize S.refs i = s
  intro this
  cases this <;> exact ⟨_, by assumption⟩

theorem Holds.frame {m m' : Machine α} {b : Option (Var × Live)} {s : Option (Var × View α)} (h : Holds m b s)
    (he : ∀ x l, b = some (x, l) → m'.lview x = m.lview x) : Holds m' b s := by
  cases h with
  | none => exact .none
  | node h1 h2 => exact .node (by rw [he _ _ rfl]; exact h1) h2
  | kids h1 h2 h3 => exact .kids (by rw [he _ _ rfl]; exact h1) h2 h3
  | bfs h1 h2 h3 => exact .bfs (by rw [he _ _ rfl]; exact h1) h2 h3
  | item h1 h2 h3 => exact .item (by rw [he _ _ rfl]; exact h1) h2 h3
  | bfsMut h1 h2 h3 h4 h5 => exact .bfsMut (by rw [he _ _ rfl]; exact h1) h2 h3 h4 h5

theorem LOK.frame (H : LOK L S) {op : Op α} {m' : Machine α} (hb : op.writes.any (Trees.borrowed L.refs L.made) = false)
    (h : (∃ o, step L.m op = .ok m' o) ∨ step L.m op = .panic m') : LOK { L with m := m' } { S with store := m'.store } := by
  refine ⟨?_, rfl, H.made, fun i => (H.ref i).frame fun x l e => ?_, H.fresh, H.excl⟩
  · rcases h with ⟨o, h⟩ | h
    · exact .ok H.reach h
    · exact .panic H.reach h
  · have hx : x ∉ op.writes := by
      intro hm
      rw [List.any_eq_false] at hb
      refine hb x hm ?_
      simp only [Trees.borrowed, List.any_eq_true, List.mem_range]
      exact ⟨i, H.lt e, by simp [e]⟩
    obtain ⟨v, hv⟩ := H.live_var e
    obtain ⟨K, M⟩ := Proof.reachable_minv H.reach
    have hf : x < L.m.fresh := by
      refine Nat.lt_of_not_le fun hf => ?_
      rw [Machine.lview, M.fr x hf] at hv; cases hv
    rcases h with ⟨o, h⟩ | h
    · exact (writes_frame H.reach hx hf).1 o h
    · exact (writes_frame H.reach hx hf).2 h

theorem lsim_call (H : LOK L S) (op : Op α) (hc : Trees.clash Live.excl L.refs L.made (.call op) = false) :
    ∃ m, LSame m (lexec L (.call op)) (ldo S (.call op)) := by
  simp only [Trees.clash, Bool.or_eq_false_iff] at hc
  have h := c10_step H.reach op
  simp only [lexec, ldo, LStore.doCall]
  rw [H.store, ← h]
  cases hs : step L.m op with
  | ok m' o => exact ⟨_, H.frame hc.1 (.inl ⟨o, hs⟩), rfl, rfl⟩
  | panic m' => exact ⟨_, H.frame hc.1 (.inr hs), rfl, rfl⟩
  | rejected => exact ⟨_, H.same _⟩
  | bad => exact ⟨_, H.same _⟩

/-- Assigning an item assigns it in the value, and moves no node. -/
theorem set_lab {m : Machine α} (hr : Reachable m) {x : Var} {v : Val (Addr × α)} {l : Loc} {u : RTree (Addr × α)} (hx : m.lview x = some v)
    (hi : v.isIter = false) (hu : v.at? l = some u) (d : α) :
    ∃ h', dataMutSet u.data.1 d m.heap = .ok () h' ∧ step m (.setData x l d) = .ok { m with heap := h' } .unit := by
  obtain ⟨K, M⟩ := Proof.reachable_minv hr
  obtain ⟨hd, e, ho, hv⟩ := M.lview_some hx
  obtain ⟨g1, g2, g3⟩ := at_lab M ho hv hu
  obtain ⟨h', e1, -⟩ := dataMutSet_ok (d := d) M.inv M.st g1 (node_lab M g1 g2).1
  have hi2 : hd.isIter = false := by
    cases hd <;> cases v <;> simp only [HDenV] at hv <;> first | rfl | exact hi
  refine ⟨h', e1, ?_⟩
  simp only [step, Machine.onNode, e, hi2, Bool.false_eq_true, if_false]
  cases l with
  | root =>
    cases hd <;> cases v <;> simp only [HDenV] at hv <;> simp only [Val.at?, reduceCtorEq] at hu
    rename_i r t
    simp only [Loc.full, resolve, Handle.addr, Option.some.injEq] at g3
    simp only [g3, Machine.run, e1, Machine.ret]
  | child q i =>
    simp only [Loc.full] at g3
    simp only [Machine.run, locate_ok M.inv ho.used, g3, e1, Machine.ret]

theorem map_fst_set {ts : List (RTree (Addr × α))} {i : Nat} {t t' : RTree (Addr × α)} (h : ts[i]? = some t) (he : t'.map Prod.fst = t.map Prod.fst) :
    mapL Prod.fst (ts.set i t') = mapL Prod.fst ts := by
  rw [mapL_eq, mapL_eq, List.map_set, he]
  refine List.ext_getElem? fun j => ?_
  rw [List.getElem?_set]
  split
  · rename_i hij
    subst hij
    split
    · rw [List.getElem?_map, h]; rfl
    · rename_i hlt; exact absurd (by simpa using (List.getElem?_eq_some_iff.mp h).1) hlt
  · rfl

theorem mapL_modKids {f : List (RTree (Addr × α)) → List (RTree (Addr × α))} : ∀ {p : Path} {ts us : List (RTree (Addr × α))},
    kidsAt ts p = some us → mapL Prod.fst (f us) = mapL Prod.fst us → mapL Prod.fst (modKids ts p f) = mapL Prod.fst ts
  | [], ts, us, h, hf => by
    simp only [kidsAt, Option.some.injEq] at h
    subst h
    exact hf
  | i :: p, ts, us, h, hf => by
    simp only [kidsAt] at h
    simp only [modKids]
    cases e : ts[i]? with
    | none => rfl
    | some t =>
      rw [e] at h
      simp only at h ⊢
      refine map_fst_set e ?_
      have := mapL_modKids h hf
      cases t
      simp only [RTree.map, data_node, kids_node] at this ⊢
      rw [this]

theorem set_shape {m m' : Machine α} (hr : Reachable m) {x : Var} {v : Val (Addr × α)} {l : Loc} {u : RTree (Addr × α)} (hx : m.lview x = some v)
    (hu : v.at? l = some u) {d : α} {o : Out α} (h : step m (.setData x l d) = .ok m' o) :
    ∃ v', m'.lview x = some v' ∧ v'.map Prod.fst = v.map Prod.fst := by
  obtain ⟨h1, -⟩ := c48_moves hr (c48_shows m) (op := .setData x l d) (opL := .setData x l (u.data.1, d))
    (by simp [Op.onNodes, Store.nodeOf, hx, hu])
  obtain ⟨S', o', e, hS, -⟩ := h1 _ _ h
  have hS' : m'.lview x = S'.vars x := by rw [← hS.vars]
  rw [hS']
  simp only [specStep, Store.onNode, hx] at e
  split at e
  · cases e
  · cases l with
    | root =>
      cases v <;> simp only [Val.at?, reduceCtorEq, Option.some.injEq] at hu
      subst hu
      simp only [Outcome.ok.injEq] at e
      obtain ⟨rfl, -⟩ := e
      rename_i t _
      refine ⟨.tree (.node (t.data.1, d) t.kids), by simp [Store.drop, Store.set], ?_⟩
      cases t; simp [Val.map]
    | child q i =>
      simp only [Val.at?] at hu
      cases ek : kidsAt v.kids q with
      | none => rw [ek] at hu; simp at hu
      | some us =>
        rw [ek] at hu
        simp only [Option.bind_some] at hu
        simp only [ek, hu, Outcome.ok.injEq] at e
        obtain ⟨rfl, -⟩ := e
        refine ⟨v.setKids (modKids v.kids q fun us => us.set i (.node (u.data.1, d) u.kids)), by simp [Store.drop, Store.setKids, Store.set], ?_⟩
        have := mapL_modKids (f := fun us => us.set i (.node (u.data.1, d) u.kids)) ek (map_fst_set hu (by cases u; simp))
        cases v with
        | tree t => cases t; simp only [Val.kids, Val.setKids, Val.map, RTree.map, kids_node, data_node] at this ⊢; rw [this]
        | forest ts => simp only [Val.kids, Val.setKids, Val.map] at this ⊢; rw [this]
        | iter ts => simp only [Val.kids, Val.setKids, Val.map] at this ⊢; rw [this]

/-- Exclusive borrows do not see the items. -/
theorem Holds.shape {m m' : Machine α} {x : Var} {b : Live} {s : Option (Var × View α)} (h : Holds m (some (x, b)) s) (he : b.excl = true)
    {v v' : Val (Addr × α)} (hv : m.lview x = some v) (hv' : m'.lview x = some v') (e : v'.map Prod.fst = v.map Prod.fst) :
    Holds m' (some (x, b)) s := by
  have hit : v'.isIter = v.isIter := by rw [← Val.isIter_map Prod.fst v', e, Val.isIter_map]
  cases h with
  | node => cases he
  | kids => cases he
  | bfs => cases he
  | item h1 h2 h3 =>
    rw [hv] at h1
    obtain rfl := Option.some.inj h1
    exact .item hv' (by rw [hit, h2]) (by rw [e]; exact h3)
  | bfsMut h1 h2 h3 h4 h5 =>
    rw [hv] at h1
    obtain rfl := Option.some.inj h1
    exact .bfsMut hv' (by rw [hit, h2]) h3 (by rw [e]; exact h4) (by rw [e]; exact h5)

/-- Find a node. -/
theorem lsim_atNode (H : LOK L S) {x : Var} {l : Loc} {k : Addr → LMachine α → LMachine α × LOut α} {k' : Val α → RTree α → LStore α × LOut α}
    (h : ∀ v u, L.m.lview x = some v → v.isIter = false → v.at? l = some u → LSame L.m (k u.data.1 L) (k' (v.map Prod.snd) (u.map Prod.snd))) :
    LSame L.m (L.atNode x l k) (S.atNode x l k') := by
  obtain ⟨K, M⟩ := Proof.reachable_minv H.reach
  simp only [LMachine.atNode, LStore.atNode, H.var]
  cases hx : L.m.lview x with
  | none =>
    have : L.m.env x = none := by
      cases e : L.m.env x with
      | none => rfl
      | some hd => obtain ⟨v, h1, -⟩ := M.lview_den e; rw [h1] at hx; cases hx
    simp only [this]
    exact H.same _
  | some v =>
    obtain ⟨hd, e, ho, hv⟩ := M.lview_some hx
    simp only [e, Option.map_some, Val.isIter_map]
    have hi : hd.isIter = v.isIter := by
      cases hd <;> cases v <;> simp only [HDenV] at hv <;> rfl
    rw [hi]
    cases hi2 : v.isIter with
    | true => exact H.same _
    | false =>
      simp only [Bool.false_eq_true, if_false]
      cases l with
      | root =>
        cases hd <;> cases v <;> simp only [HDenV] at hv
        · rename_i r t
          replace hv : HDenV L.m.heap.lab K (.tree r) (.tree t) := hv
          have hat : (Val.tree t).at? .root = some t := rfl
          have := h _ _ hx hi2 hat
          have h3 := (at_lab M ho hv hat).2.2
          simp only [Loc.full, resolve, Handle.addr, Option.some.injEq] at h3
          rw [← h3] at this
          exact this
        · exact H.same _
        · simp [Val.isIter] at hi2
      | child q i =>
        have hr := at_resolve M ho hv q i
        simp only [L.run_read (locate_ok M.inv ho.used), Val.at?_map]
        cases e2 : resolve K hd.addr (q ++ [i]) with
        | none =>
          rw [e2] at hr
          simp only at hr
          simp only [hr]
          exact H.same _
        | some a =>
          rw [e2] at hr
          obtain ⟨u, h1, rfl⟩ := hr
          simp only [h1]
          exact h v u hx hi2 h1

theorem lsim_atKids (H : LOK L S) {x : Var} {p : Path} {k : Addr → LMachine α → LMachine α × LOut α} {k' : Val α → List (RTree α) → LStore α × LOut α}
    (h : ∀ K, MInv L.m K → ∀ v ws n, L.m.lview x = some v → v.isIter = false → kidsAt v.kids p = some ws → L.m.heap.Used n → DenL L.m.heap.lab K (K n) ws →
      LSame L.m (k n L) (k' (v.map Prod.snd) (mapL Prod.snd ws))) :
    LSame L.m (L.atKids x p k) (S.atKids x p k') := by
  obtain ⟨K, M⟩ := Proof.reachable_minv H.reach
  simp only [LMachine.atKids, LStore.atKids, H.var]
  cases hx : L.m.lview x with
  | none =>
    have : L.m.env x = none := by
      cases e : L.m.env x with
      | none => rfl
      | some hd => obtain ⟨v, h1, -⟩ := M.lview_den e; rw [h1] at hx; cases hx
    simp only [this]
    exact H.same _
  | some v =>
    obtain ⟨hd, e, ho, hv⟩ := M.lview_some hx
    simp only [e, Option.map_some, Val.isIter_map]
    have hi : hd.isIter = v.isIter := by
      cases hd <;> cases v <;> simp only [HDenV] at hv <;> rfl
    rw [hi]
    cases hi2 : v.isIter with
    | true => exact H.same _
    | false =>
      simp only [Bool.false_eq_true, if_false, L.run_read (locate_ok M.inv ho.used), Val.kids_map, kidsAt_mapL]
      cases e2 : kidsAt v.kids p with
      | some ws =>
        obtain ⟨n, h1, h2, h3⟩ := kidsAt_lab M ho hv e2
        simp only [h1]
        exact h K M v ws n hx hi2 e2 h2 h3
      | none =>
        have := resolve_kidsAt (p := p) hv.kids
        cases e3 : resolve K hd.addr p with
        | none => exact H.same _
        | some n =>
          rw [e3] at this
          obtain ⟨us, h1, -⟩ := this
          rw [h1] at e2; cases e2

theorem lsim_atRef (H : LOK L S) {i : Nat} {k : Var → Addr → LMachine α × LOut α} {k' : Var → Val α → Loc → RTree α → LStore α × LOut α}
    (h : ∀ K, MInv L.m K → ∀ x v l u hd, L.m.lview x = some v → v.at? l = some u → L.m.env x = some hd → HOK L.m.heap hd → HDenV L.m.heap.lab K hd v →
      L.m.heap.Used u.data.1 → Den L.m.heap.lab K u.data.1 u → (∀ j l', L.refs j = some (x, l') → l'.excl = false) →
      LSame L.m (k x u.data.1) (k' x (v.map Prod.snd) l (u.map Prod.snd))) :
    LSame L.m (L.atRef i k) (S.atRef i k') := by
  obtain ⟨K, M⟩ := Proof.reachable_minv H.reach
  have hi := H.ref i
  have hE := H.excl i
  simp only [LMachine.atRef, LStore.atRef]
  revert hi hE
  generalize L.refs i = b
  generalize S.refs i = s
  intro hi hE
  cases hi with
  | none => exact H.same _
  | kids => exact H.same _
  | bfs => exact H.same _
  | item => exact H.same _
  | bfsMut => exact H.same _
  | @node x v l u h1 h2 =>
    obtain ⟨hd, e, ho, hv⟩ := M.lview_some h1
    obtain ⟨g1, g2, -⟩ := at_lab M ho hv h2
    simp only [Val.at?_map, h2, Option.map_some]
    exact h K M x v l u hd h1 h2 e ho hv g1 g2 fun j l' hj => (hE j x _ l' rfl hj).symm

theorem bfs_once {v : Val (Addr × α)} {x : Var} {l : Loc} {u : RTree (Addr × α)} (hx : L.m.lview x = some v) (hu : v.at? l = some u) :
    Holds L.m (some (x, .bfs (bfsStart u.data.1))) (some (x, .bfs (bfsVisits [u.map Prod.snd]))) := by
  have := Holds.bfs (q := bfsStart u.data.1) (uss := [[u]]) hx (.cons ⟨rfl, fun _ => rfl⟩ .nil) (by simpa using .inl ⟨l, u, hu, .inl rfl⟩)
  rwa [seenL_eq] at this

theorem bfs_kids {v : Val (Addr × α)} {x : Var} {p : Path} {ws : List (RTree (Addr × α))} (hx : L.m.lview x = some v) {it : RawIter}
    (hw : kidsAt v.kids p = some ws) (hi : ItL it ws) : Holds L.m (some (x, .bfs [it])) (some (x, .bfs (bfsVisits (mapL Prod.snd ws)))) := by
  have := Holds.bfs (q := [it]) (uss := [ws]) hx (.cons hi .nil) (by simpa using .inr ⟨p, ws, hw, List.suffix_refl _⟩)
  rw [seenL_eq] at this
  simpa using this

theorem bfsChildrenStart_lab {K} (M : MInv L.m K) {a : Addr} (ha : L.m.heap.Used a) {ws : List (RTree (Addr × α))}
    (hd : DenL L.m.heap.lab K (K a) ws) : ∃ it, bfsChildrenStart a L.m.heap = .ok [it] L.m.heap ∧ ItL it ws := by
  obtain ⟨it, e, h⟩ := iter_lab M ha hd
  exact ⟨it, by simp [bfsChildrenStart, e], h⟩

theorem lsim_opt (H : LOK L S) {x : Var} {v : Val (Addr × α)} (hx : L.m.lview x = some v)
    (hs : ∀ j l', L.refs j = some (x, l') → l'.excl = false) {l : Loc} {o : Option Addr} (h : o = (v.at? l).map fun u => u.data.1) : LSame L.m (L.newOpt x o) (S.newAt x (v.map Prod.snd) l) := by
  subst h
  simp only [LStore.newAt, Val.at?_map]
  cases e : v.at? l with
  | none => exact H.same _
  | some u => exact H.new (.node hx e) hs

theorem lookAt_lab {K} (M : MInv L.m K) {u : RTree (Addr × α)} (ha : L.m.heap.Used u.data.1) (hd : Den L.m.heap.lab K u.data.1 u) :
    lookAt u.data.1 L.m.heap = .ok (u.data.2, u.kids.length, u.count) L.m.heap := by
  obtain ⟨h1, h2, h3⟩ := node_lab M ha hd
  have hf : (L.m.heap.data u.data.1).isForest = false := by
    simp only [Heap.val] at h1
    cases e : L.m.heap.data u.data.1 <;> rw [e] at h1 <;> simp [Data.val?] at h1 <;> rfl
  have hc : u.count = countL u.kids + 1 := by cases u; simp
  simp only [lookAt, Trees.M.bind_apply, dataRef_ok ha.1 h1, Res.bind_ok, degree_ok ha.1, nodeCount, isForest_ok ha.1, hf, h3, getSize_ok ha.1,
    Trees.M.pure_apply, hc, Bool.false_eq_true, if_false]

theorem isForest_val {h : Heap α} {a : Addr} (ha : h.Used a) : (h.data a).isForest = (h.val a).isNone := by
  have := ha.2
  simp only [Heap.val]
  cases e : h.data a <;> rw [e] at this <;> simp [Data.isNone] at this <;> rfl

theorem lsim_parent (H : LOK L S) {K} (M : MInv L.m K) {x : Var} {v : Val (Addr × α)} {l : Loc} {u : RTree (Addr × α)} {hd : Handle}
    (hx : L.m.lview x = some v) (hu : v.at? l = some u) (ho : HOK L.m.heap hd) (hv : HDenV L.m.heap.lab K hd v) (hn : L.m.heap.Used u.data.1)
    (hs : ∀ j l', L.refs j = some (x, l') → l'.excl = false) :
    LSame L.m (L.run (parent u.data.1) fun o L => L.newOpt x o)
      (match (v.map Prod.snd).above l with
        | some l' => S.new x (.node (v.map Prod.snd) l')
        | none => (S, .nothing)) := by
  rw [L.run_read (parent_ok M.inv hn M.kv), Val.above_map]
  have hres := (at_lab M ho hv hu).2.2
  cases l with
  | root =>
    simp only [Loc.full, resolve, Option.some.injEq] at hres
    rw [← hres, ho.root]
    exact H.same _
  | child q i =>
    simp only [Loc.full, resolve_append, Option.bind_eq_some_iff] at hres
    obtain ⟨n, hq, hm⟩ := hres
    have hmem : u.data.1 ∈ K n := by
      simp only [resolve] at hm
      cases e : (K n)[i]? with
      | none => rw [e] at hm; cases hm
      | some c => rw [e] at hm; obtain rfl := Option.some.inj hm; exact List.mem_of_getElem? e
    obtain ⟨-, -, hup⟩ := (M.inv.l.mem n _).mp hmem
    have hnu := M.inv.reach_used ho.used (resolve_reach hq)
    simp only [hup, isForest_val hnu, Val.above]
    rcases List.eq_nil_or_concat' q with rfl | ⟨q', j, rfl⟩
    · simp only [resolve, Option.some.injEq] at hq
      subst hq
      have hk := ho.kind
      cases hd <;> cases v <;> simp only [HDenV] at hv <;> simp only [Handle.addr, List.getLast?_nil] at hk ⊢
      · rename_i r t
        obtain ⟨d, e⟩ := Heap.isVal_iff.mp hk
        have hv' : HDenV L.m.heap.lab K (.tree r) (.tree t) := hv
        have hat : (Val.tree t).at? .root = some t := rfl
        have h3 := (at_lab M ho hv' hat).2.2
        simp only [Loc.full, resolve, Handle.addr, Option.some.injEq] at h3
        simp only [e, Option.isNone_some, Bool.false_eq_true, if_false]
        rw [h3]
        exact H.new (.node hx hat) hs
      · have hk' : L.m.heap.val _ = none := hk
        simp only [hk', Option.isNone_none, if_true]
        exact H.same _
      · have hk' : L.m.heap.val _ = none := hk
        simp only [hk', Option.isNone_none, if_true]
        exact H.same _
    · have hr := at_resolve M ho hv q' j
      rw [hq] at hr
      obtain ⟨w, h1, rfl⟩ := hr
      obtain ⟨g1, g2, -⟩ := at_lab M ho hv h1
      simp only [(node_lab M g1 g2).1, Option.isNone_some, Bool.false_eq_true, if_false, List.getLast?_concat, List.dropLast_concat]
      exact H.new (.node hx h1) hs

theorem kids_len (f : α → β) (ts : List (RTree α)) : (mapL f ts).length = ts.length := by simp [mapL_eq]

theorem bfsMut_once {v : Val (Addr × α)} {x : Var} {l : Loc} {u : RTree (Addr × α)} (hx : L.m.lview x = some v) (hi : v.isIter = false)
    (hu : v.at? l = some u) :
    Holds L.m (some (x, .bfsMut (bfsStart u.data.1))) (some (x, .bfsMut (mutVisits l.full [withPath (u.map Prod.snd)]))) := by
  have hq : List.Forall₂ ItL (bfsStart u.data.1) [[u]] := .cons ⟨rfl, fun _ => rfl⟩ .nil
  obtain ⟨h1, h2⟩ := queue_w hq (v := v) (by simpa using .inl ⟨l, u, hu, .inl rfl⟩)
  refine .bfsMut hx hi h1 h2 ?_
  rw [flatten_mapL]
  exact mutVisits_places (us := [u]) (.cons ⟨[], rfl, by rw [List.append_nil, Loc.full_ofPath]; exact hu⟩ .nil)

theorem bfsMut_kids {v : Val (Addr × α)} {x : Var} {p : Path} {ws : List (RTree (Addr × α))} (hx : L.m.lview x = some v) (hi : v.isIter = false)
    {it : RawIter} (hw : kidsAt v.kids p = some ws) (hit : ItL it ws) :
    Holds L.m (some (x, .bfsMut [it])) (some (x, .bfsMut (mutVisits p (withPathL (mapL Prod.snd ws))))) := by
  have hq : List.Forall₂ ItL [it] [ws] := .cons hit .nil
  obtain ⟨h1, h2⟩ := queue_w hq (v := v) (by simpa using .inr ⟨p, ws, hw, List.suffix_refl _⟩)
  refine .bfsMut hx hi h1 h2 ?_
  rw [flatten_mapL]
  simp only [List.flatten_cons, List.flatten_nil, List.append_nil]
  refine mutVisits_places (atPath_list ws 0 fun j u hj => ?_)
  rw [← List.append_assoc, List.append_nil, at_ofPath, hw]
  simpa using hj

/-- Assigning through a borrow. -/
theorem lsim_set (H : LOK L S) {i : Nat} {x : Var} {v : Val (Addr × α)} {l : Loc} {u : RTree (Addr × α)} {b : Live} (hL : L.refs i = some (x, b))
    (hb : b.excl = true) (hx : L.m.lview x = some v) (hi : v.isIter = false) (hu : v.at? l = some u) (d : α) :
    ∃ m, LSame m (L.run (dataMutSet u.data.1 d) fun _ L => (L, .ok .unit)) (S.doCall (.setData x l d)) ∧
      step L.m (.setData x l d) = .ok m .unit ∧ (L.run (dataMutSet u.data.1 d) fun _ L => (L, .ok .unit)).2 = .ok .unit := by
  obtain ⟨h', e1, e2⟩ := set_lab H.reach hx hi hu d
  have hs := c10_step H.reach (.setData x l d)
  rw [e2] at hs
  refine ⟨{ L.m with heap := h' }, ⟨?_, ?_, ?_⟩, e2, by simp only [LMachine.run, e1]⟩
  · simp only [LMachine.run, e1, LStore.doCall, H.store, ← hs, Outcome.map]
    refine ⟨.ok H.reach e2, rfl, H.made, fun j => ?_, H.fresh, H.excl⟩
    rcases hj : L.refs j with _ | ⟨y, b'⟩
    · have := H.ref j
      rw [hj] at this
      exact this.frame (fun x l h => by cases h)
    · have hr := H.ref j
      rw [hj] at hr
      by_cases hy : y = x
      · subst hy
        obtain ⟨v', g1, g2⟩ := set_shape H.reach hx hu e2
        exact hr.shape (by rw [← H.excl i j _ _ _ hL hj]; exact hb) hx g1 g2
      · refine hr.frame fun z k hz => ?_
        simp only [Option.some.injEq, Prod.mk.injEq] at hz
        obtain ⟨rfl, -⟩ := hz
        obtain ⟨w, hw⟩ := H.live_var hj
        obtain ⟨K, M⟩ := Proof.reachable_minv H.reach
        have hf : y < L.m.fresh := by
          refine Nat.lt_of_not_le fun hf => ?_
          rw [Machine.lview, M.fr y hf] at hw; cases hw
        exact (writes_frame H.reach (op := .setData x l d) (by simpa [Op.writes] using hy) hf).1 _ e2
  · simp only [LMachine.run, e1, LStore.doCall, H.store, ← hs, Outcome.map]
  · simp only [LMachine.run, e1]

theorem lsim_look (H : LOK L S) (op : LOp α) (hc : ∀ c, op ≠ .call c) (hc' : ∀ i d, op ≠ .set i d)
    (hcl : Trees.clash Live.excl L.refs L.made op = false) : LSame L.m (lexec L op) (ldo S op) := by
  cases op with
  | call op => exact absurd rfl (hc op)
  | set i d => exact absurd rfl (hc' i d)
  | hold x l =>
    refine lsim_atNode H fun v u hx hit hu => H.new (.node hx hu) (H.unlocked hcl)
  | iter x p =>
    refine lsim_atKids H fun K M v ws n hx hit hw hn hd => ?_
    obtain ⟨it, e, hi⟩ := iter_lab M hn hd
    rw [L.run_read e]
    exact H.new (.kids hx hw (by simpa using hi)) (H.unlocked hcl)
  | bfs x l => exact lsim_atNode H fun v u hx hit hu => H.new (bfs_once hx hu) (H.unlocked hcl)
  | bfsChildren x p =>
    refine lsim_atKids H fun K M v ws n hx hit hw hn hd => ?_
    obtain ⟨it, e, hi⟩ := bfsChildrenStart_lab M hn hd
    rw [L.run_read e]
    exact H.new (bfs_kids hx hw hi) (H.unlocked hcl)
  | bfsMut x l =>
    exact lsim_atNode H fun v u hx hit hu => H.new (bfsMut_once hx hit hu) fun j l' e => absurd e (H.unborrowed hcl j l')
  | bfsChildrenMut x p =>
    refine lsim_atKids H fun K M v ws n hx hit hw hn hd => ?_
    obtain ⟨it, e, hi⟩ := bfsChildrenStart_lab M hn hd
    rw [L.run_read e]
    exact H.new (bfsMut_kids hx hit hw hi) fun j l' e => absurd e (H.unborrowed hcl j l')
  | get i =>
    obtain ⟨K, M⟩ := Proof.reachable_minv H.reach
    have hi := H.ref i
    simp only [lexec, ldo, LStore.itemAt, H.var]
    revert hi
    generalize L.refs i = b
    generalize S.refs i = s
    intro hi
    cases hi with
    | none => exact H.same _
    | node => exact H.same _
    | kids => exact H.same _
    | bfs => exact H.same _
    | bfsMut => exact H.same _
    | @item x v l w h1 h2 h3 =>
      rw [Val.at?_map, Option.map_eq_some_iff] at h3
      obtain ⟨u, hu, rfl⟩ := h3
      obtain ⟨hd, -, ho, hv⟩ := M.lview_some h1
      obtain ⟨g1, g2, -⟩ := at_lab M ho hv hu
      have e : (u.map Prod.fst).data = u.data.1 := by cases u; simp
      simp only [e, h1, Option.map_some, Option.bind_some, Val.at?_map, hu]
      rw [L.run_read (dataRef_ok g1.1 (node_lab M g1 g2).1)]
      exact ⟨H, by cases u; simp, rfl⟩
  | look i =>
    refine lsim_atRef H fun K M x v l u hd hx hu _ _ _ hn hdn hs => ?_
    rw [L.run_read (lookAt_lab M hn hdn)]
    refine ⟨H, ?_, rfl⟩
    cases u; simp [← mapL_eq, countL_mapL, kids_len]
  | parentOf i =>
    refine lsim_atRef H fun K M x v l u hd hx hu he ho hv hn hdn hs => ?_
    exact lsim_parent H M hx hu ho hv hn hs
  | frontOf i =>
    refine lsim_atRef H fun K M x v l u hd hx hu he ho hv hn hdn hs => ?_
    rw [L.run_read (front_ok hn.1)]
    refine lsim_opt H hx hs ?_
    rw [M.inv.l.head _ hn, denL_lab (node_lab M hn hdn).2.1]
    simp only [Val.at?, Val.kidsAt_path hu, Option.bind_some]
    cases u.kids <;> simp
  | backOf i =>
    refine lsim_atRef H fun K M x v l u hd hx hu he ho hv hn hdn hs => ?_
    rw [L.run_read (show back u.data.1 L.m.heap = _ from getTail_ok hn.1)]
    refine lsim_opt H hx hs ?_
    rw [M.inv.l.tail _ hn, denL_lab (node_lab M hn hdn).2.1, List.getLast?_map]
    simp only [Val.at?, Val.kidsAt_path hu, Option.bind_some, List.getLast?_eq_getElem?]
    cases u; simp [mapL_eq]
  | iterOf i =>
    refine lsim_atRef H fun K M x v l u hd hx hu he ho hv hn hdn hs => ?_
    obtain ⟨it, e, hi⟩ := iter_lab M hn (node_lab M hn hdn).2.1
    rw [L.run_read e]
    exact H.new (.kids hx (Val.kidsAt_path hu) (by simpa using hi)) hs
  | bfsOf i => exact lsim_atRef H fun K M x v l u hd hx hu _ _ _ _ _ hs => H.new (bfs_once hx hu) hs
  | bfsChildrenOf i =>
    refine lsim_atRef H fun K M x v l u hd hx hu he ho hv hn hdn hs => ?_
    obtain ⟨it, e, hi⟩ := bfsChildrenStart_lab M hn (node_lab M hn hdn).2.1
    rw [L.run_read e, RTree.kids_map]
    exact H.new (bfs_kids hx (Val.kidsAt_path hu) hi) hs
  | next i =>
    obtain ⟨K, M⟩ := Proof.reachable_minv H.reach
    have hi := H.ref i
    simp only [lexec, ldo]
    rcases hL : L.refs i with _ | b
    · rw [hL] at hi
      cases hS : S.refs i <;> rw [hS] at hi <;> cases hi
      exact H.same _
    · have hlt := H.lt hL
      rw [hL] at hi
      revert hi
      generalize hS : S.refs i = s
      intro hi
      cases hi with
      | node => exact H.same _
      | @kids x v p ws it k h1 h2 h3 =>
        have hp : Lies v (ws.drop k) := .inr ⟨p, ws, h2, List.drop_suffix _ _⟩
        have ha : v.at? (.child p k) = ws[k]? := by simp [Val.at?, h2]
        simp only [Val.at?_map, ha]
        rcases hk : ws[k]? with _ | u
        · have hdr : ws.drop k = [] := by simpa using hk
          rw [hdr] at h3
          rw [L.run_read (h3.next_nil _)]
          refine ⟨?_, rfl, rfl⟩
          simp only [Option.map_none]
          have e : L.put i (some (x, .kids it)) = L := by
            cases L
            simp only [LMachine.put, LMachine.mk.injEq, true_and, and_true] at hL ⊢
            funext j
            split
            · rename_i hj; rw [hj, hL]
            · rfl
          rw [e]; exact H
        · have hdr : ws.drop k = u :: ws.drop (k + 1) := by
            obtain ⟨hlt', e⟩ := List.getElem?_eq_some_iff.mp hk
            rw [List.drop_eq_getElem_cons hlt', e]
          rw [hdr] at h3 hp
          obtain ⟨it', e1, h4⟩ := h3.next_cons M h1 hp
          rw [L.run_read e1]
          refine LOK.new (H.puts hL (.kids h1 h2 h4) rfl) (.node h1 (ha.trans hk)) ?_
          · intro j l' hj
            simp only [LMachine.put] at hj
            split at hj
            · simp only [Option.some.injEq, Prod.mk.injEq, true_and] at hj; rw [← hj]; rfl
            · exact (H.excl _ _ _ _ _ hj hL).trans rfl
      | @bfs x v q uss h1 h2 h3 =>
        obtain ⟨q', uss', g1, g2, g3, g4⟩ := splitted_lab M h1 h2 h3
        simp only []
        rw [L.run_read g3]
        have hb := Holds.bfs h1 g1 g2
        have e : seenL uss'.flatten = (seenL uss.flatten).tail := by simp only [seenL, g4, List.map_tail]
        rw [e] at hb
        refine ⟨H.puts hL hb rfl, ?_, rfl⟩
        simp only [seenL, List.head?_map, Option.map_map, LOut.visit.injEq]
        congr 1
        funext u
        cases u; simp [visit, ← mapL_eq, countL_mapL, kids_len]
      | item => exact H.same _
      | @bfsMut x v q wss ps h1 h2 h3 h4 h5 =>
        obtain ⟨uss, rfl, g1, g2⟩ := queue_lift h3 h4
        obtain ⟨q', uss', k1, k2, k3, k4⟩ := splitted_mut M h1 g1 g2
        obtain ⟨j1, j2⟩ := queue_w (v := v) k1 k2
        have e : qbfs (uss'.map (mapL Prod.fst)).flatten = (qbfs (uss.map (mapL Prod.fst)).flatten).tail := by
          rw [flatten_mapL, flatten_mapL, qbfs_mapL, qbfs_mapL, k4, List.map_tail]
        have hput : ∀ ps', List.Forall₂ (PlaceOf (v.map Prod.fst)) ps' (qbfs (uss.map (mapL Prod.fst)).flatten).tail →
            LOK (L.put i (some (x, .bfsMut q'))) (S.put i (some (x, .bfsMut ps'))) := by
          intro ps' hp
          exact H.puts hL (.bfsMut h1 h2 j1 j2 (by rw [e]; exact hp)) rfl
        simp only []
        rw [L.run_read k3]
        rw [flatten_mapL, qbfs_mapL] at h5 hput
        cases hq : qbfs uss.flatten with
        | nil =>
          rw [hq] at h5 hput
          cases h5
          have := hput [] .nil
          have e2 : S.put i (some (x, .bfsMut [])) = S := by
            cases S
            simp only [LStore.put, LStore.mk.injEq, true_and, and_true] at hS ⊢
            funext j
            split
            · rename_i hj; rw [hj, hS]
            · rfl
          rw [e2] at this
          exact ⟨this, rfl, rfl⟩
        | cons u us =>
          rw [hq] at h5 hput
          cases h5 with
          | @cons p _ ps _ hp hps =>
            simp only [List.head?_cons, Option.map_some]
            obtain ⟨a1, a2, -⟩ := LOK.new (x := x) (l := .item u.data.1) (s := .item p.1) (hput ps hps)
              (by have := Holds.item h1 h2 hp.1; cases u; exact this) (by
                intro j l' hj
                simp only [LMachine.put] at hj
                split at hj
                · simp only [Option.some.injEq, Prod.mk.injEq, true_and] at hj; rw [← hj]; rfl
                · exact (H.excl _ _ _ _ _ hj hL).trans rfl)
            refine ⟨a1, ?_, rfl⟩
            have hm : S.made = L.made := H.made
            rw [hm, hp.2]
            cases u; simp [← mapL_eq, countL_mapL, kids_len]
  | len i =>
    have hi := H.ref i
    simp only [lexec, ldo]
    revert hi
    generalize L.refs i = b
    generalize S.refs i = s
    intro hi
    cases hi with
    | none => exact H.same _
    | node => exact H.same _
    | bfs => exact H.same _
    | item => exact H.same _
    | bfsMut => exact H.same _
    | kids h1 h2 h3 =>
      refine ⟨H, ?_, rfl⟩
      simp only [Val.kids_map, kidsAt_mapL, h2]
      simp [h3.1, kids_len]
  | release i =>
    have hi := H.ref i
    simp only [lexec, ldo]
    rcases hL : L.refs i with _ | b
    · rw [hL] at hi
      cases hS : S.refs i <;> rw [hS] at hi <;> cases hi
      exact H.same _
    · have hlt := H.lt hL
      rw [hL] at hi
      rcases hS : S.refs i with _ | s
      · rw [hS] at hi; cases hi
      · exact ⟨H.put hlt .none (fun _ _ e => by cases e), rfl, rfl⟩

theorem lsim_setOp (H : LOK L S) (i : Nat) (d : α) : ∃ m, LSame m (lexec L (.set i d)) (ldo S (.set i d)) ∧
    (m = L.m ∨ ∃ x l b v u, L.refs i = some (x, b) ∧ b.excl = true ∧ L.m.lview x = some v ∧ v.at? l = some u ∧
      step L.m (.setData x l d) = .ok m .unit) ∧ ((lexec L (.set i d)).2 = .rejected ∨ (lexec L (.set i d)).2 = .ok .unit) := by
  have hi := H.ref i
  simp only [lexec, ldo]
  rcases hL : L.refs i with _ | b
  · rw [hL] at hi
    cases hS : S.refs i <;> rw [hS] at hi <;> cases hi
    exact ⟨_, H.same _, .inl rfl, .inl rfl⟩
  · rw [hL] at hi
    revert hi
    generalize hS : S.refs i = s
    intro hi
    cases hi with
    | node => exact ⟨_, H.same _, .inl rfl, .inl rfl⟩
    | kids => exact ⟨_, H.same _, .inl rfl, .inl rfl⟩
    | bfs => exact ⟨_, H.same _, .inl rfl, .inl rfl⟩
    | bfsMut => exact ⟨_, H.same _, .inl rfl, .inl rfl⟩
    | @item x v l w h1 h2 h3 =>
      rw [Val.at?_map, Option.map_eq_some_iff] at h3
      obtain ⟨u, hu, rfl⟩ := h3
      have e : (u.map Prod.fst).data = u.data.1 := by cases u; simp
      rw [e] at hL ⊢
      obtain ⟨m, g1, g2, g3⟩ := lsim_set H hL rfl h1 h2 hu d
      exact ⟨m, g1, .inr ⟨x, l, _, v, u, rfl, rfl, h1, hu, g2⟩, .inr g3⟩

theorem lsim (H : LOK L S) (op : LOp α) : LOK (lstep L op).1 (lspec S op).1 ∧ (lstep L op).2 = (lspec S op).2 := by
  simp only [lstep, lspec, ← H.clash]
  cases hcl : Trees.clash Live.excl L.refs L.made op with
  | true => exact ⟨H, rfl⟩
  | false =>
    simp only [Bool.false_eq_true, if_false]
    by_cases hc : ∃ c, op = .call c
    · obtain ⟨c, rfl⟩ := hc
      obtain ⟨m, h1, h2, -⟩ := lsim_call H c hcl; exact ⟨h1, h2⟩
    · by_cases hc' : ∃ i d, op = .set i d
      · obtain ⟨i, d, rfl⟩ := hc'
        obtain ⟨m, ⟨h1, h2, -⟩, -⟩ := lsim_setOp H i d; exact ⟨h1, h2⟩
      · obtain ⟨h1, h2, -⟩ := lsim_look H op (fun c e => hc ⟨c, e⟩) (fun i d e => hc' ⟨i, d, e⟩) hcl; exact ⟨h1, h2⟩
end

end Trees
