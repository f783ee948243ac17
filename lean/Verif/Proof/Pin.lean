import Verif.Model.Pin
import Verif.Proof.LiveMut
/-
A node reference stays with its node: marks on nodes follow the nodes through every call.
-/
namespace Trees
set_option linter.unusedSimpArgs false
set_option linter.unusedVariables false
variable {α β : Type}
open RTree

/-- `s` is what the variables of `m` show, with the nodes marked by `mk`. -/
structure Marks (m : Machine α) (mk : Addr → Option Nat) (s : Store (Tagged α)) : Prop where
  vars : s.vars = fun x => (m.lview x).map (Val.map fun q => (mk q.1, q.2))
  fresh : s.fresh = m.fresh
  log : s.dropped.map Prod.snd = m.heap.log
  new : ∀ a, m.heap.nextAddr ≤ a → mk a = none

/-- The context of marks. -/
abbrev tagK (m : Machine α) (mk : Addr → Option Nat) (h : ∀ a, m.heap.nextAddr ≤ a → mk a = none) : NCtx (Option Nat × α) α :=
  tagC mk (· = none) m.heap.nextAddr m.heap.nextVec fun a t h1 h2 => by subst h2; exact (h a h1).symm

section
variable {m : Machine α} {K : Addr → List Addr} {mk : Addr → Option Nat} {s : Store (Tagged α)}

theorem marks_store (M : MInv m K) (H : Marks m mk s) : (m.relabel mk s.dropped).store = s := by
  have r : MRel (tagK m mk H.new) (m.relabel mk s.dropped) m := mrel_relabel M.st H.log
  have h1 : (m.relabel mk s.dropped).view = s.vars := by rw [H.vars]; exact funext fun x => r.view_tag M x
  have h2 : (m.relabel mk s.dropped).fresh = s.fresh := H.fresh.symm
  simp only [Machine.store, h1, h2]
  rfl

theorem marks_abs (M : MInv m K) (H : Marks m mk s) : Abs (m.relabel mk s.dropped) K s := by
  have r : MRel (tagK m mk H.new) (m.relabel mk s.dropped) m := mrel_relabel M.st H.log
  have := (r.minv M).abs_store
  rwa [marks_store M H] at this

theorem mark_abandon (M : MInv m K) (H : Marks m mk s) (x : Var) : IdRes mk (step m (.abandon x)) (tagStep (s) (.abandon x)) := by
  have r : MRel (tagK m mk H.new) (m.relabel mk s.dropped) m := mrel_relabel M.st H.log
  have A := marks_abs M H
  have ML := r.minv M
  have hA := A.vars x
  simp only [step, tagStep]
  cases hx : m.env x with
  | none =>
    have : (m.relabel mk s.dropped).env x = none := hx
    rw [this] at hA; simp only at hA; simp only [hA]; trivial
  | some hd =>
    have hxL : (m.relabel mk s.dropped).env x = some hd := hx
    rw [hxL] at hA
    obtain ⟨v, e, hv⟩ := hA
    rw [e]
    have ho := M.hnd x hd hx
    cases hd <;> cases v <;> simp only [HDen] at hv
    · rename_i a t
      cases t with
      | node b ts =>
        have hv' := hv
        rw [Den_node] at hv'
        have hm : m.heap.val a = some b.2 := by rw [r.heap.val a, hv'.1]; rfl
        obtain ⟨h', e', hI, hS, hU, hval, hup, hlog, hK⟩ := abandon_ok M.inv M.st ho.used hm
        simp only [Handle.addr] at e'
        simp only [Machine.run, e']
        obtain ⟨-, K1, M1, A1⟩ := sim_abandon M M.abs_store hx (ts := ts.map (RTree.map Prod.snd)) (d0 := b.2) (d := b.2) (by
          have := Den.mapF Prod.snd hv
          have e2 : (fun a => ((m.relabel mk s.dropped).heap.val a).map Prod.snd) = m.heap.val := by
            funext a; rw [r.heap.val a]; rfl
          rw [e2] at this
          simpa [RTree.mapL_eq] using this) rfl hI hS hU hval hup hlog hK
        -- the new heap with tags
        have r' : LRel (tagK m mk H.new) (h'.relabel mk s.dropped) h' := by
          obtain ⟨lm2, hl2⟩ : ∃ lm2, LRel (tagC (α := α) (fun _ => ()) (fun _ => True) m.heap.nextAddr m.heap.nextVec (fun _ _ _ _ => rfl)) lm2 h' := by
            have r0 : LRel (tagC (α := α) (fun _ => ()) (fun _ => True) m.heap.nextAddr m.heap.nextVec (fun _ _ _ _ => rfl))
              (m.heap.relabel (fun _ => ()) (m.heap.log.map fun d => ((), d))) m.heap := (mrel_relabel M.st (map_pair_snd _ _)).heap
            have := nat_abandon (fun _ _ _ => trivial) a _ _ r0
            rw [e'] at this
            cases hq : abandon a (m.heap.relabel (fun _ => ()) (m.heap.log.map fun d => ((), d))) <;> rw [hq] at this <;> simp only [LRes] at this
            exact ⟨_, this.2⟩
          exact lrel_relabel (by rw [hlog]; exact H.log) (by rw [← hl2.nextAddr]; exact hl2.hi) (by rw [← hl2.nextVec]; exact hl2.hv)
            (fun v nv h1 h2 => hl2.blk v nv h1 (by rw [hl2.vec]; exact h2))
        have hnew : mk m.heap.nextAddr = none := H.new _ (Nat.le_refl _)
        have hvL : (h'.relabel mk s.dropped).val = upd (upd (m.relabel mk s.dropped).heap.val a none) m.heap.nextAddr (some (none, b.2)) := by
          rw [r'.lab_val, r.heap.lab_val]
          funext c
          simp only [Heap.lab, hval, upd_apply, Handle.addr]
          split
          · rename_i hc; subst hc; simp [hnew]
          · by_cases hc : c = a
            · simp only [hc, if_true]; rfl
            · simp only [hc, if_false]
        have key := sim_abandon ML A hxL hv (d := (none, b.2)) (h' := h'.relabel mk s.dropped) (n := m.heap.nextAddr) rfl
          (r'.inv hI) (r'.sinv hS) (by
            intro y
            rw [r'.used, r.heap.used]; exact hU y) hvL hup rfl (by
            intro y hy; rw [r.heap.used] at hy; exact hK y hy)
        obtain ⟨-, K2, M2, A2⟩ := key
        have r2 : MRel (tagK m mk H.new) (⟨h'.relabel mk s.dropped, upd ((m.relabel mk s.dropped).setEnv x (some (.tree m.heap.nextAddr))) m.fresh (some (.forest a)), m.fresh + 1⟩ : Machine _)
          (⟨h', upd (m.setEnv x (some (.tree m.heap.nextAddr))) m.fresh (some (.forest a)), m.fresh + 1⟩ : Machine α) := ⟨r', rfl, rfl⟩
        obtain ⟨g1, g2, g3⟩ := idRes_state r2 M1 M2 A2
        exact ⟨g1, g2, g3, by simp only [Out.map, H.fresh]⟩
    · trivial
    · trivial

theorem mark_ident (M : MInv m K) (H : Marks m mk s) (op : Op α) : IdRes mk (step m op) (tagStep (s) op) := by
  have r : MRel (tagK m mk H.new) (m.relabel mk s.dropped) m := mrel_relabel M.st H.log
  have A := marks_abs M H
  have go : ∀ opL, OpRel (tagK m mk H.new) opL op → IdRes mk (step m op) (specStep (s) opL) :=
    fun opL ho => idRes_core r M A (nat_step r ho)
  cases op with
  | abandon x => exact mark_abandon M H x
  | setData x l d =>
    refine idRes_core r M A (ORelN.setData r M A d ?_)
    intro v u h1 h2
    simp only [Store.tagAt, h1, Option.bind_some, h2]
  | treeNew d => simp only [tagStep]; refine go _ ?_; exact ⟨rfl, rfl⟩
  | forestNew => simp only [tagStep]; refine go _ ?_; exact trivial
  | pushFront x p y => simp only [tagStep]; refine go _ ?_; exact ⟨rfl, rfl, rfl⟩
  | pushBack x p y => simp only [tagStep]; refine go _ ?_; exact ⟨rfl, rfl, rfl⟩
  | popFront x p => simp only [tagStep]; refine go _ ?_; exact ⟨rfl, rfl⟩
  | popBack x p => simp only [tagStep]; refine go _ ?_; exact ⟨rfl, rfl⟩
  | prepend x p y => simp only [tagStep]; refine go _ ?_; exact ⟨rfl, rfl, rfl⟩
  | append x p y => simp only [tagStep]; refine go _ ?_; exact ⟨rfl, rfl, rfl⟩
  | insertPrevSib x l y => simp only [tagStep]; refine go _ ?_; exact ⟨rfl, rfl, rfl⟩
  | insertNextSib x l y => simp only [tagStep]; refine go _ ?_; exact ⟨rfl, rfl, rfl⟩
  | detach x l => simp only [tagStep]; refine go _ ?_; exact ⟨rfl, rfl⟩
  | drop x => simp only [tagStep]; refine go _ ?_; exact rfl
  | intoIter x => simp only [tagStep]; refine go _ ?_; exact rfl
  | iterNext x => simp only [tagStep]; refine go _ ?_; exact rfl
  | iterLen x => simp only [tagStep]; refine go _ ?_; exact rfl
  | data x l => simp only [tagStep]; refine go _ ?_; exact ⟨rfl, rfl⟩
  | degree x p => simp only [tagStep]; refine go _ ?_; exact ⟨rfl, rfl⟩
  | nodeCount x p => simp only [tagStep]; refine go _ ?_; exact ⟨rfl, rfl⟩
  | hasNoChild x p => simp only [tagStep]; refine go _ ?_; exact ⟨rfl, rfl⟩
  | childData x p => simp only [tagStep]; refine go _ ?_; exact ⟨rfl, rfl⟩
  | frontData x p => simp only [tagStep]; refine go _ ?_; exact ⟨rfl, rfl⟩
  | backData x p => simp only [tagStep]; refine go _ ?_; exact ⟨rfl, rfl⟩
  | mapBfs x l f => simp only [tagStep]; refine go _ ?_; exact ⟨rfl, rfl, fun _ _ => ⟨rfl, rfl⟩⟩
  | mapBfsForest x p f => simp only [tagStep]; refine go _ ?_; exact ⟨rfl, rfl, fun _ _ => ⟨rfl, rfl⟩⟩
  | rebuild x f => simp only [tagStep]; refine go _ ?_; exact ⟨rfl, fun _ _ => ⟨rfl, rfl⟩⟩
  | bfs x l k => simp only [tagStep]; refine go _ ?_; exact ⟨rfl, rfl, rfl⟩
  | bfsChildren x p k => simp only [tagStep]; refine go _ ?_; exact ⟨rfl, rfl, rfl⟩
  | intoBfs x k => simp only [tagStep]; refine go _ ?_; exact ⟨rfl, rfl⟩
  | bfsMut x l k f => simp only [tagStep]; refine go _ ?_; exact ⟨rfl, rfl, rfl, fun _ _ _ hb => ⟨rfl, hb⟩⟩
  | bfsChildrenMut x p k f => simp only [tagStep]; refine go _ ?_; exact ⟨rfl, rfl, rfl, fun _ _ _ hb => ⟨rfl, hb⟩⟩
  | treeFromTuple t => simp only [tagStep]; refine go _ ?_; exact ⟨_, fun d => (none, d), id, t, fun _ => ⟨rfl, rfl⟩, rfl, (Tup.map_same t).symm⟩
  | forestFromTuple ts => simp only [tagStep]; refine go _ ?_; exact ⟨_, fun d => (none, d), id, ts, fun _ => ⟨rfl, rfl⟩, rfl, (Tup.mapL_same ts).symm⟩
end

section
variable {m : Machine α} {K : Addr → List Addr} {mk : Addr → Option Nat} {s : Store (Tagged α)}

/-! ### New nodes get addresses that were not in use -/

/-- The same items. -/
def sameC (α : Type) (a0 v0 : Nat) : NCtx α α := ⟨id, fun _ _ => True, fun _ => True, a0, v0, fun _ _ _ _ => trivial⟩

theorem opRel_same {a0 v0 : Nat} (op : Op α) : OpRel (sameC α a0 v0) op op := by
  cases op
  case treeFromTuple t => exact ⟨_, id, id, t, fun _ => ⟨rfl, trivial⟩, (Tup.map_same t).symm, (Tup.map_same t).symm⟩
  case forestFromTuple ts => exact ⟨_, id, id, ts, fun _ => ⟨rfl, trivial⟩, (Tup.mapL_same ts).symm, (Tup.mapL_same ts).symm⟩
  all_goals simp only [OpRel, CRel, FRel, IRel, sameC, and_true, implies_true, true_implies, id]

theorem Out.map_same (o : Out α) : o.map id = o := by
  cases o <;> simp [Out.map]

theorem nextAddr_mono (M : MInv m K) (op : Op α) : match step m op with
    | .ok m' _ => m.heap.nextAddr ≤ m'.heap.nextAddr
    | .panic m' => m.heap.nextAddr ≤ m'.heap.nextAddr
    | _ => True := by
  have r : MRel (sameC α m.heap.nextAddr m.heap.nextVec) m m := by
    refine ⟨⟨rfl, rfl, rfl, rfl, rfl, rfl, rfl, rfl, rfl, rfl, rfl, rfl, List.map_id _, fun a => Data.mapD_id _, fun _ _ _ => trivial, Nat.le_refl _, Nat.le_refl _,
      fun v nv h1 h2 => ?_⟩, rfl, rfl⟩
    exact absurd (Nat.lt_of_le_of_lt h1 (M.st.vecB v nv h2).1) (Nat.lt_irrefl _)
  have := nat_step r (opRel_same op)
  cases h : step m op <;> rw [h] at this <;> simp only [ORelN] at this
  · exact this.1.heap.hi
  · exact this.heap.hi
  · trivial
  · trivial

/-- Marks follow the nodes through a call. -/
theorem mark_step (M : MInv m K) (H : Marks m mk s) (op : Op α) : match step m op, tagStep s op with
    | .ok m' o, .ok s' o' => Marks m' mk s' ∧ o'.map Prod.snd = o
    | .panic m', .panic s' => Marks m' mk s'
    | .rejected, .rejected => True
    | _, _ => False := by
  have h1 := mark_ident M H op
  have h2 := nextAddr_mono M op
  revert h1 h2
  generalize step m op = o1
  generalize tagStep s op = o2
  intro h1 h2
  cases o1 <;> cases o2 <;> simp only [IdRes] at h1 ⊢
  · exact ⟨⟨h1.1, h1.2.1, h1.2.2.1, fun a ha => H.new a (Nat.le_trans h2 ha)⟩, h1.2.2.2⟩
  · exact ⟨h1.1, h1.2.1, h1.2.2, fun a ha => H.new a (Nat.le_trans h2 ha)⟩

/-! ### A method called through a reference is the call at the place of the node -/

theorem direct_step (M : MInv m K) {x : Var} {hd : Handle} (hx : m.env x = some hd) (hi : hd.isIter = false) {l : Loc} {a : Addr}
    (h : resolve K hd.addr l.full = some a) (hr : l = .root → ∃ r, hd = .tree r) {c : NodeCall α} (hg : c.gives ≠ some x) :
    m.direct a c = step m (c.at x l) := by
  have ho := M.hnd x hd hx
  have e1 : ∀ k : Handle → Addr → Outcome (Machine α) α, m.onKids x l.full k = k hd a := by
    intro k
    simp only [Machine.onKids, hx, hi, Bool.false_eq_true, if_false, Machine.run, locate_ok M.inv ho.used, h]
  have e2 : ∀ k : Addr → Outcome (Machine α) α, m.onNode x l k = k a := by
    intro k
    simp only [Machine.onNode, hx, hi, Bool.false_eq_true, if_false]
    cases l with
    | root =>
      obtain ⟨r, rfl⟩ := hr rfl
      simp only [Loc.full, resolve, Handle.addr, Option.some.injEq] at h
      simp only [h]
    | child q i =>
      simp only [Loc.full] at h
      simp only [Machine.run, locate_ok M.inv ho.used, h]
  have e3 : ∀ y, some y ≠ some x → ∀ k : Addr → Outcome (Machine α) α, m.takeTree x y k = m.giveTree y k := by
    intro y hy k
    have : x ≠ y := fun e => hy (by rw [e])
    simp only [Machine.takeTree, Machine.giveTree, if_neg this]; rfl
  have e4 : ∀ y, some y ≠ some x → ∀ k : Addr → Outcome (Machine α) α, m.takeForest x y k = m.giveForest y k := by
    intro y hy k
    have : x ≠ y := fun e => hy (by rw [e])
    simp only [Machine.takeForest, Machine.giveForest, if_neg this]; rfl
  cases c <;> simp only [Machine.direct, NodeCall.at, step, e1, e2] <;> simp only [NodeCall.gives] at hg
  · rw [e3 _ hg]
  · rw [e3 _ hg]
  · rw [e4 _ hg]
  · rw [e4 _ hg]
  · rw [e3 _ hg]
  · rw [e3 _ hg]
  · rfl
  · rfl
end

/-! ### Marking a node -/

mutual
theorem map_congr_tree {f g : α → β} : ∀ {t : RTree α}, (∀ q ∈ t.pre, f q = g q) → t.map f = t.map g
  | .node d ts, h => by
    simp only [RTree.pre, List.mem_cons, forall_eq_or_imp] at h
    simp only [RTree.map, h.1, map_congr_list h.2]
theorem map_congr_list {f g : α → β} : ∀ {ts : List (RTree α)}, (∀ q ∈ preL ts, f q = g q) → mapL f ts = mapL g ts
  | [], _ => rfl
  | t :: ts, h => by
    simp only [RTree.preL, List.mem_append] at h
    simp only [RTree.mapL, map_congr_tree fun q hq => h q (.inl hq), map_congr_list fun q hq => h q (.inr hq)]
end

theorem map_congr_val {f g : α → β} {v : Val α} (h : ∀ q ∈ v.nodes, f q = g q) : v.map f = v.map g := by
  cases v <;> simp only [Val.nodes] at h
  · simp only [Val.map, map_congr_tree h]
  · simp only [Val.map, map_congr_list h]
  · simp only [Val.map, map_congr_list h]

section
variable {f f' : Addr × α → Tagged α} {a : Addr} {k : Nat}

theorem pre_sub {t : RTree α} : ∀ {ts : List (RTree α)}, t ∈ ts → t.pre.Sublist (preL ts)
  | [], h => by cases h
  | u :: ts, h => by
    simp only [RTree.preL]
    rcases List.mem_cons.mp h with rfl | h
    · exact List.sublist_append_left _ _
    · exact (pre_sub h).trans (List.sublist_append_right _ _)

theorem pre_root (t : RTree α) : t.data ∈ t.pre := by cases t; simp [RTree.pre]
theorem pre_kids (t : RTree α) : (preL t.kids).Sublist t.pre := by cases t; simp [RTree.pre]

/-- Two trees of a list share no node. -/
theorem pre_apart {b : Addr} : ∀ {ts : List (RTree (Addr × α))} {i j : Nat} {t u : RTree (Addr × α)}, ((preL ts).map Prod.fst).Nodup →
    ts[i]? = some t → ts[j]? = some u → b ∈ t.pre.map Prod.fst → b ∈ u.pre.map Prod.fst → i = j
  | [], i, j, t, u, _, h1, _, _, _ => by simp at h1
  | w :: ts, i, j, t, u, hn, h1, h2, h3, h4 => by
    simp only [RTree.preL, List.map_append, List.nodup_append] at hn
    cases i with
    | zero =>
      cases j with
      | zero => rfl
      | succ j =>
        simp only [List.getElem?_cons_zero, Option.some.injEq] at h1
        simp only [List.getElem?_cons_succ] at h2
        subst h1
        exact absurd rfl (hn.2.2 b h3 b (((pre_sub (List.mem_of_getElem? h2)).map Prod.fst).subset h4))
    | succ i =>
      cases j with
      | zero =>
        simp only [List.getElem?_cons_zero, Option.some.injEq] at h2
        simp only [List.getElem?_cons_succ] at h1
        subst h2
        exact absurd rfl (hn.2.2 b h4 b (((pre_sub (List.mem_of_getElem? h1)).map Prod.fst).subset h3))
      | succ j =>
        simp only [List.getElem?_cons_succ] at h1 h2
        rw [pre_apart hn.2.1 h1 h2 h3 h4]

theorem map_mark (hf : ∀ q, q.1 ≠ a → f' q = f q) (hf' : ∀ q, q.1 = a → f' q = (some k, (f q).2)) {u : RTree (Addr × α)} (hu : u.data.1 = a)
    (hn : (u.pre.map Prod.fst).Nodup) : u.map f' = (u.map f).mark k := by
  cases u with
  | node d ts =>
    simp only [RTree.pre, List.map_cons, List.nodup_cons] at hn
    simp only [data_node] at hu
    simp only [RTree.map, RTree.mark, data_node, RTree.kids]
    rw [hf' d hu]
    congr 1
    refine map_congr_list fun q hq => hf q ?_
    rintro e
    refine hn.1 ?_
    rw [hu, ← e]
    exact List.mem_map_of_mem hq

theorem modKids_mark (hf : ∀ q, q.1 ≠ a → f' q = f q) (hf' : ∀ q, q.1 = a → f' q = (some k, (f q).2)) {us : List (RTree (Addr × α))} {j : Nat}
    {u : RTree (Addr × α)} (hj : us[j]? = some u) (hu : u.data.1 = a) : ∀ {p : Path} {ts : List (RTree (Addr × α))},
    ((preL ts).map Prod.fst).Nodup → kidsAt ts p = some us →
    mapL f' ts = modKids (mapL f ts) p (fun us => us.modify j (RTree.mark k)) ∧ a ∈ (preL ts).map Prod.fst
  | [], ts, hn, hp => by
    simp only [kidsAt, Option.some.injEq] at hp
    subst hp
    have hin : a ∈ u.pre.map Prod.fst := by rw [← hu]; exact List.mem_map_of_mem (pre_root u)
    refine ⟨?_, ((pre_sub (List.mem_of_getElem? hj)).map Prod.fst).subset hin⟩
    simp only [modKids, mapL_eq]
    refine List.ext_getElem? fun i => ?_
    rw [List.getElem?_modify, List.getElem?_map, List.getElem?_map]
    cases hi : ts[i]? with
    | none => simp
    | some t =>
      by_cases e : j = i
      · subst e
        rw [hj] at hi
        obtain rfl := Option.some.inj hi
        simp only [Option.map_some, if_true, Option.map_eq_map]
        rw [map_mark hf hf' hu (hn.sublist ((pre_sub (List.mem_of_getElem? hj)).map Prod.fst))]
      · simp only [Option.map_some, if_neg e, Option.map_eq_map, Option.some.injEq]
        refine map_congr_tree fun q hq => hf q fun e' => e ?_
        exact pre_apart hn hj hi hin (by rw [← e']; exact List.mem_map_of_mem hq)
  | i :: p, ts, hn, hp => by
    simp only [kidsAt] at hp
    cases hi : ts[i]? with
    | none => rw [hi] at hp; cases hp
    | some t =>
      rw [hi] at hp
      have hs := pre_sub (List.mem_of_getElem? hi)
      have hk := (pre_kids t).trans hs
      obtain ⟨h1, h2⟩ := modKids_mark hf hf' hj hu (hn.sublist (hk.map Prod.fst)) hp
      refine ⟨?_, (hk.map Prod.fst).subset h2⟩
      have hi' : (mapL f ts)[i]? = some (t.map f) := by rw [mapL_eq, List.getElem?_map, hi]; rfl
      simp only [modKids, hi', kids_map, ← h1, data_map]
      rw [mapL_eq, mapL_eq]
      refine List.ext_getElem? fun j' => ?_
      rw [List.getElem?_set, List.getElem?_map, List.getElem?_map, List.length_map]
      have hin : a ∈ t.pre.map Prod.fst := ((pre_kids t).map Prod.fst).subset h2
      by_cases e : i = j'
      · subst e
        have hl : i < ts.length := (List.getElem?_eq_some_iff.mp hi).1
        rw [hi]
        simp only [if_true, hl, Option.map_some, Option.some.injEq]
        cases t with
        | node d ks =>
          simp only [RTree.map, data_node, RTree.kids, RTree.node.injEq, and_true]
          refine hf d fun e => ?_
          have := hn.sublist (hs.map Prod.fst)
          simp only [RTree.pre, List.map_cons, List.nodup_cons] at this
          exact this.1 (by rw [e]; exact h2)
      · simp only [if_neg e]
        cases hj' : ts[j']? with
        | none => rfl
        | some t' =>
          simp only [Option.map_some, Option.some.injEq]
          refine map_congr_tree fun q hq => hf q fun e' => e ?_
          exact pre_apart hn hi hj' hin (by rw [← e']; exact List.mem_map_of_mem hq)

theorem setMark_map (hf : ∀ q, q.1 ≠ a → f' q = f q) (hf' : ∀ q, q.1 = a → f' q = (some k, (f q).2)) {v : Val (Addr × α)} {l : Loc}
    {u : RTree (Addr × α)} (hn : (v.nodes.map Prod.fst).Nodup) (hl : v.at? l = some u) (hu : u.data.1 = a) :
    v.map f' = (v.map f).setMark k l := by
  cases l with
  | root =>
    cases v with
    | tree t =>
      obtain rfl : t = u := by simpa [Val.at?] using hl
      simp only [Val.map, Val.setMark, Val.tree.injEq]
      exact map_mark hf hf' hu hn
    | forest _ => cases hl
    | iter _ => cases hl
  | child q j =>
    simp only [Val.at?] at hl
    cases hq : kidsAt v.kids q with
    | none => rw [hq] at hl; cases hl
    | some us =>
      rw [hq] at hl
      simp only [Option.bind_some] at hl
      have hk : (preL v.kids).Sublist v.nodes := by
        cases v
        · exact pre_kids _
        · exact List.Sublist.refl _
        · exact List.Sublist.refl _
      obtain ⟨h1, h2⟩ := modKids_mark hf hf' hl hu (hn.sublist (hk.map Prod.fst)) hq
      cases v with
      | tree t =>
        cases t with
        | node d ts =>
          simp only [Val.kids, RTree.kids] at h1 h2
          simp only [Val.map, RTree.map, Val.setMark, Val.setKids, Val.kids, RTree.kids, data_node, ← h1, Val.tree.injEq, RTree.node.injEq, and_true]
          refine hf d fun e => ?_
          simp only [Val.nodes, RTree.pre, List.map_cons, List.nodup_cons] at hn
          exact hn.1 (by rw [e]; exact h2)
      | forest ts => simp only [Val.kids] at h1; simp only [Val.map, Val.setMark, Val.setKids, Val.kids, ← h1]
      | iter ts => simp only [Val.kids] at h1; simp only [Val.map, Val.setMark, Val.setKids, Val.kids, ← h1]
end

theorem kidsAt_sub : ∀ {p : Path} {ts us : List (RTree α)}, kidsAt ts p = some us → (preL us).Sublist (preL ts)
  | [], ts, us, h => by
    simp only [kidsAt, Option.some.injEq] at h
    rw [h]
  | i :: p, ts, us, h => by
    simp only [kidsAt] at h
    cases hi : ts[i]? with
    | none => rw [hi] at h; cases h
    | some t =>
      rw [hi] at h
      exact (kidsAt_sub h).trans ((pre_kids t).trans (pre_sub (List.mem_of_getElem? hi)))

theorem at_nodes {v : Val α} {l : Loc} {u : RTree α} (h : v.at? l = some u) : u.data ∈ v.nodes := by
  cases l with
  | root =>
    cases v with
    | tree t =>
      obtain rfl : t = u := by simpa [Val.at?] using h
      exact pre_root t
    | forest _ => cases h
    | iter _ => cases h
  | child q j =>
    simp only [Val.at?] at h
    cases hq : kidsAt v.kids q with
    | none => rw [hq] at h; cases h
    | some us =>
      rw [hq] at h
      simp only [Option.bind_some] at h
      have hk : (preL v.kids).Sublist v.nodes := by
        cases v
        · exact pre_kids _
        · exact List.Sublist.refl _
        · exact List.Sublist.refl _
      exact hk.subset ((kidsAt_sub hq).subset ((pre_sub (List.mem_of_getElem? h)).subset (pre_root u)))

/-! ### References -/

theorem place_some {s : Store (Tagged α)} {k : Nat} {x : Var} {l : Loc} (h : s.place k = some (x, l)) :
    ∃ v t, s.vars x = some v ∧ v.isIter = false ∧ v.at? l = some t ∧ t.data.1 = some k := by
  simp only [Store.place] at h
  obtain ⟨y, -, h⟩ := List.exists_of_findSome?_eq_some h
  simp only [Option.bind_eq_some_iff, Option.map_eq_some_iff, Prod.mk.injEq] at h
  obtain ⟨v, h1, l', h2, rfl, rfl⟩ := h
  have h3 := List.find?_some h2
  simp only [Option.any_eq_true, beq_iff_eq] at h3
  obtain ⟨t, h3, h4⟩ := h3
  refine ⟨v, t, h1, ?_, h3, h4⟩
  cases v
  · rfl
  · rfl
  · simp [Val.locs] at h2

theorem mapPathL_get (g : Path → α → β) (b : Path) : ∀ (ts : List (RTree α)) (i n : Nat),
    (mapPathL g b i ts)[n]? = ts[n]?.map (mapPath g (b ++ [i + n]))
  | [], i, n => by simp [mapPathL]
  | t :: ts, i, 0 => by simp [mapPathL]
  | t :: ts, i, n + 1 => by
    simp only [mapPathL, List.getElem?_cons_succ, mapPathL_get g b ts (i + 1) n]
    rw [show i + 1 + n = i + (n + 1) by omega]

theorem mem_paths {us : List (RTree α)} {j : Nat} {t : RTree α} (hj : us[j]? = some t) : ∀ {p : Path} {b : Path} {ts : List (RTree α)},
    kidsAt ts p = some us → b ++ p ++ [j] ∈ (preL (mapPathL (fun p d => (p, d)) b 0 ts)).map Prod.fst
  | [], b, ts, h => by
    simp only [kidsAt, Option.some.injEq] at h
    subst h
    have e : (mapPathL (fun p d => (p, d)) b 0 ts)[j]? = some (mapPath (fun p d => (p, d)) (b ++ [j]) t) := by
      rw [mapPathL_get, hj, Nat.zero_add]; rfl
    have := pre_root (mapPath (fun p d => (p, d)) (b ++ [j]) t)
    refine List.mem_map.mpr ⟨_, (pre_sub (List.mem_of_getElem? e)).subset this, ?_⟩
    cases t; simp [mapPath]
  | i :: p, b, ts, h => by
    simp only [kidsAt] at h
    cases hi : ts[i]? with
    | none => rw [hi] at h; cases h
    | some u =>
      rw [hi] at h
      have e : (mapPathL (fun p d => (p, d)) b 0 ts)[i]? = some (mapPath (fun p d => (p, d)) (b ++ [i]) u) := by
        rw [mapPathL_get, hi, Nat.zero_add]; rfl
      have ih := mem_paths hj (b := b ++ [i]) h
      have hs := (pre_kids (mapPath (fun p d => (p, d)) (b ++ [i]) u)).trans (pre_sub (List.mem_of_getElem? e))
      have ek : (mapPath (fun p d => (p, d)) (b ++ [i]) u).kids = mapPathL (fun p d => (p, d)) (b ++ [i]) 0 u.kids := by cases u; rfl
      rw [← ek] at ih
      have := (hs.map Prod.fst).subset ih
      simpa using this

/-- `locs` lists all positions of a tree or forest. -/
theorem mem_locs {v : Val α} (hv : v.isIter = false) {l : Loc} {t : RTree α} (h : v.at? l = some t) : l ∈ v.locs := by
  cases l with
  | root =>
    cases v with
    | tree u =>
      refine List.mem_map.mpr ⟨([], u.data), ?_, rfl⟩
      have := pre_root (withPath u)
      cases u; exact this
    | forest _ => cases h
    | iter _ => cases h
  | child q j =>
    simp only [Val.at?] at h
    cases hq : kidsAt v.kids q with
    | none => rw [hq] at h; cases h
    | some us =>
      rw [hq] at h
      simp only [Option.bind_some] at h
      have key : ∀ ts, v.kids = ts → (q ++ [j]) ∈ (preL (withPathL ts)).map Prod.fst := by
        intro ts e
        have := mem_paths h (b := []) hq
        rw [e] at this
        exact this
      have eo : Loc.ofPath (q ++ [j]) = .child q j := by simp [Loc.ofPath]
      cases v with
      | tree u =>
        have hs := (pre_kids (withPath u)).map Prod.fst
        have ek : (withPath u).kids = withPathL u.kids := by cases u; rfl
        rw [ek] at hs
        obtain ⟨x, g1, g2⟩ := List.mem_map.mp (hs.subset (key _ rfl))
        exact List.mem_map.mpr ⟨x, g1, by rw [g2, eo]⟩
      | forest ts =>
        obtain ⟨x, g1, g2⟩ := List.mem_map.mp (key _ rfl)
        exact List.mem_map.mpr ⟨x, g1, by rw [g2, eo]⟩
      | iter _ => cases hv

/-- A node with mark `k` is found. -/
theorem place_found {s : Store (Tagged α)} {k : Nat} {x : Var} {v : Val (Tagged α)} {l : Loc} {t : RTree (Tagged α)} (hx : x < s.fresh)
    (hs : s.vars x = some v) (hv : v.isIter = false) (hl : v.at? l = some t) (hk : t.data.1 = some k) : ∃ q, s.place k = some q := by
  cases e : s.place k with
  | some q => exact ⟨q, rfl⟩
  | none =>
    simp only [Store.place, List.findSome?_eq_none_iff] at e
    have := e x (List.mem_range.mpr hx)
    simp only [hs, Option.bind_some, Option.map_eq_none_iff, List.find?_eq_none] at this
    refine absurd ?_ (this l (mem_locs hv hl))
    simp [hl, hk]

/-- The references of the code and the marks of the specification. -/
structure POK (P : PMachine α) (S : PStore α) : Prop where
  reach : Reachable P.m
  made : S.made = P.made
  marks : ∃ (mk : Addr → Option Nat) (own : Nat → Option Addr), Marks P.m mk S.store ∧ (∀ a k, mk a = some k → own k = some a) ∧
    (∀ k, P.made ≤ k → own k = none) ∧ ∀ i, P.refs i = (S.marks i).bind own ∧ ∀ k, S.marks i = some k → (own k).isSome

section
variable {P : PMachine α} {S : PStore α}

theorem POK.call (H : POK P S) (op : Op α) : POK (P.after (step P.m op)).1 (S.doCall op).1 ∧ (P.after (step P.m op)).2 = (S.doCall op).2 ∧
    (P.after (step P.m op)).2 ≠ .bad := by
  obtain ⟨K, M⟩ := Proof.reachable_minv H.reach
  obtain ⟨mk, own, h1, h2, h3, h4⟩ := H.marks
  have hs := mark_step M h1 op
  have hb := c10_never_bad H.reach op
  simp only [PStore.doCall]
  cases e1 : step P.m op with
  | ok m' o =>
    rw [e1] at hs
    cases e2 : tagStep S.store op <;> rw [e2] at hs <;> simp only at hs
    exact ⟨⟨.ok H.reach e1, H.made, mk, own, hs.1, h2, h3, h4⟩, by simp only [PMachine.after, hs.2], by simp [PMachine.after]⟩
  | panic m' =>
    rw [e1] at hs
    cases e2 : tagStep S.store op <;> rw [e2] at hs <;> simp only at hs
    exact ⟨⟨.panic H.reach e1, H.made, mk, own, hs, h2, h3, h4⟩, rfl, by simp [PMachine.after]⟩
  | rejected =>
    rw [e1] at hs
    cases e2 : tagStep S.store op <;> rw [e2] at hs <;> simp only at hs
    exact ⟨H, rfl, by simp [PMachine.after]⟩
  | bad => exact absurd e1 hb

/-- A new reference to the node that has been found. -/
theorem POK.take (H : POK P S) {K} (M : MInv P.m K) {x : Var} {hd : Handle} (hx : P.m.env x = some hd) (hi : hd.isIter = false) {a : Addr} {p : Path}
    (ha : P.m.heap.Used a) {l : Loc} (hp : resolve K a p = resolve K hd.addr l.full) (hr : l = .root → ∃ r, hd = .tree r) :
    POK (P.find a p).1 (S.take x l).1 ∧ (P.find a p).2 = (S.take x l).2 ∧ (P.find a p).2 ≠ .bad := by
  obtain ⟨mk, own, h1, h2, h3, h4⟩ := H.marks
  obtain ⟨v, e1, e2⟩ := M.lview_den hx
  have ho := M.hnd x hd hx
  have hv : S.store.vars x = some (v.map fun q => (mk q.1, q.2)) := by rw [h1.vars]; simp only [e1, Option.map_some]
  have hvi : (v.map fun q : Addr × α => (mk q.1, q.2)).isIter = false := by
    cases hd <;> cases v <;> simp only [HDenV] at e2 <;> first | rfl | exact hi
  simp only [PMachine.find, PStore.take, hv, locate_ok M.inv ha, hp, hvi, Bool.false_eq_true, if_false, Val.at?_map]
  cases hu : v.at? l with
  | none =>
    have : resolve K hd.addr l.full = none := by
      cases l with
      | root =>
        obtain ⟨r, rfl⟩ := hr rfl
        cases v <;> simp only [HDenV] at e2
        cases hu
      | child q j =>
        have := at_resolve M ho e2 q j
        simp only [Loc.full]
        cases e : resolve K hd.addr (q ++ [j]) with
        | none => rfl
        | some b =>
          rw [e] at this
          obtain ⟨u, g, -⟩ := this
          rw [hu] at g; cases g
    rw [this]
    exact ⟨H, rfl, by simp⟩
  | some u =>
    obtain ⟨g1, g2, g3⟩ := at_lab M ho e2 hu
    rw [g3]
    simp only [Option.map_some, PStore.refTo, data_map]
    cases hm : mk u.data.1 with
    | some k =>
      have hk := h2 _ _ hm
      refine ⟨⟨H.reach, by simp only [H.made], mk, own, h1, h2, fun k' hk' => h3 k' (Nat.le_of_succ_le hk'), fun i => ?_⟩, by simp only [H.made], by simp⟩
      simp only [H.made]
      by_cases e : i = P.made
      · simp only [e, if_true, Option.bind_some, hk, Option.some.injEq, forall_eq', true_and]; rfl
      · simp only [if_neg e]; exact h4 i
    | none =>
      refine ⟨⟨H.reach, by simp only [H.made], fun b => if b = u.data.1 then some P.made else mk b, fun k => if k = P.made then some u.data.1 else own k,
        ⟨?_, h1.fresh, h1.log, fun b hb => ?_⟩, fun b k hb => ?_, fun k hk => ?_, fun i => ?_⟩, by simp only [H.made], by simp⟩
      · funext z
        have hn := (M.lview_nodes e1).1
        simp only [Store.set]
        by_cases ez : z = x
        · simp only [if_pos ez]
          rw [ez, e1, Option.map_some, H.made]
          congr 1
          refine (setMark_map (a := u.data.1) (fun q hq => ?_) (fun q hq => ?_) hn hu rfl).symm
          · simp only [if_neg hq]
          · simp only [if_pos hq]
        · simp only [if_neg ez, h1.vars]
          cases ew : P.m.lview z with
          | none => rfl
          | some w =>
            simp only [Option.map_some, Option.some.injEq]
            refine map_congr_val fun q hq => ?_
            rw [if_neg]
            intro e
            have hin : u.data.1 ∈ v.nodes.map Prod.fst := by
              have := at_nodes hu
              exact List.mem_map_of_mem this
            refine M.lview_apart e1 ew (Ne.symm ez) _ hin ?_
            rw [← e]
            exact List.mem_map_of_mem hq
      · have : b ≠ u.data.1 := by
          rintro rfl
          exact absurd (Nat.lt_of_le_of_lt hb (M.st.liveB _ g1.1)) (Nat.lt_irrefl _)
        simp only [if_neg this]; exact h1.new b hb
      · by_cases e : b = u.data.1
        · simp only [if_pos e, Option.some.injEq] at hb
          simp only [← hb, if_true, e]
        · simp only [if_neg e] at hb
          have := h2 b k hb
          have hne : k ≠ P.made := by
            rintro rfl
            rw [h3 _ (Nat.le_refl _)] at this; cases this
          simp only [if_neg hne]; exact this
      · have hk' : P.made + 1 ≤ k := hk
        simp only [if_neg (show k ≠ P.made by omega)]; exact h3 k (by omega)
      · simp only [H.made]
        by_cases e : i = P.made
        · simp [e]
        · simp only [if_neg e]
          obtain ⟨g4, g5⟩ := h4 i
          cases em : S.marks i with
          | none => rw [em] at g4; exact ⟨g4, by simp⟩
          | some k =>
            have hk := g5 k em
            have hne : k ≠ P.made := by
              rintro rfl
              rw [h3 _ (Nat.le_refl _)] at hk; cases hk
            rw [em] at g4
            simp only [Option.bind_some] at g4
            simp only [Option.bind_some, if_neg hne, g4, Option.some.injEq, forall_eq', true_and]
            exact hk

/-- Where the node of a reference is. -/
theorem POK.at_place (H : POK P S) {K} (M : MInv P.m K) {i k : Nat} (hm : S.marks i = some k) {x : Var} {l : Loc} (hp : S.store.place k = some (x, l)) :
    ∃ a hd v, P.refs i = some a ∧ P.m.heap.Used a ∧ P.m.env x = some hd ∧ hd.isIter = false ∧ P.m.lview x = some v ∧ (v.at? l).map (fun u => u.data.1) = some a ∧
      resolve K hd.addr l.full = some a ∧ (l = .root → ∃ r, hd = .tree r) := by
  obtain ⟨mk, own, h1, h2, h3, h4⟩ := H.marks
  obtain ⟨w, t, g1, g2, g3, g4⟩ := place_some hp
  rw [h1.vars] at g1
  simp only [Option.map_eq_some_iff] at g1
  obtain ⟨v, g5, rfl⟩ := g1
  rw [Val.at?_map, Option.map_eq_some_iff] at g3
  obtain ⟨u, g6, rfl⟩ := g3
  rw [data_map] at g4
  have hown := h2 _ _ g4
  obtain ⟨hd, e, ho, hv⟩ := M.lview_some g5
  obtain ⟨k1, k2, k3⟩ := at_lab M ho hv g6
  refine ⟨u.data.1, hd, v, by rw [(h4 i).1, hm]; exact hown, k1, e, ?_, g5, by rw [g6]; rfl, k3, ?_⟩
  · cases hd <;> cases v <;> simp only [HDenV] at hv <;> first | rfl | exact g2
  · rintro rfl
    cases v with
    | tree _ => cases hd <;> simp only [HDenV] at hv; exact ⟨_, rfl⟩
    | forest _ => cases g6
    | iter _ => cases g6

/-- One call. -/
theorem psim (H : POK P S) (op : POp α) (hd : (pspec S op).2 ≠ .dangling) : POK (pinStep P op).1 (pspec S op).1 ∧ (pinStep P op).2 = (pspec S op).2 ∧
    (pinStep P op).2 ≠ .bad := by
  obtain ⟨K, M⟩ := Proof.reachable_minv H.reach
  have hnone : ∀ {i}, S.marks i = none → P.refs i = none := by
    obtain ⟨mk, own, h1, h2, h3, h4⟩ := H.marks
    intro i hi
    rw [(h4 i).1, hi]; rfl
  cases op with
  | call op => exact H.call op
  | take x l =>
    simp only [pinStep, pspec]
    have hv : ∃ f : Addr × α → Tagged α, S.store.vars x = (P.m.lview x).map (Val.map f) := by
      obtain ⟨mk, own, h1, -⟩ := H.marks
      exact ⟨_, congrFun h1.vars x⟩
    obtain ⟨f, hv⟩ := hv
    cases hx : P.m.env x with
    | none =>
      have : P.m.lview x = none := by simp [Machine.lview, hx]
      rw [this] at hv
      simp only [PStore.take, hv]
      exact ⟨H, rfl, by simp⟩
    | some h =>
      obtain ⟨v, e1, e2⟩ := M.lview_den hx
      rw [e1] at hv
      have ho := M.hnd x h hx
      cases h with
      | iter r =>
        cases v <;> simp only [HDenV] at e2
        simp only [PStore.take, hv, Option.map_some, Val.map, Val.isIter, if_true]
        exact ⟨H, trivial, by simp⟩
      | tree r => exact H.take M hx rfl ho.used rfl fun _ => ⟨r, rfl⟩
      | forest f =>
        cases l with
        | root =>
          cases v <;> simp only [HDenV] at e2
          simp only [PStore.take, hv, Option.map_some, Val.map, Val.isIter, Bool.false_eq_true, if_false, Val.at?]
          exact ⟨H, trivial, by simp⟩
        | child q j => exact H.take M hx rfl ho.used rfl fun h => by cases h
  | kid i j =>
    simp only [pinStep, pspec] at hd ⊢
    cases hm : S.marks i with
    | none => simp only [hnone hm]; exact ⟨H, trivial, by simp⟩
    | some k =>
      rw [hm] at hd
      simp only at hd ⊢
      cases hp : S.store.place k with
      | none => rw [hp] at hd; exact absurd rfl hd
      | some q =>
        obtain ⟨x, l⟩ := q
        obtain ⟨a, h, v, g1, g2, g3, g4, g5, g6, g7, g8⟩ := H.at_place M hm hp
        simp only [g1]
        refine H.take M g3 g4 g2 ?_ fun h => by cases h
        have e : (Loc.child l.full j).full = l.full ++ [j] := rfl
        rw [e, resolve_append, g7]; rfl
  | use i c =>
    simp only [pinStep, pspec] at hd ⊢
    cases hm : S.marks i with
    | none => simp only [hnone hm]; exact ⟨H, trivial, by simp⟩
    | some k =>
      rw [hm] at hd
      simp only at hd ⊢
      cases hp : S.store.place k with
      | none => rw [hp] at hd; exact absurd rfl hd
      | some q =>
        obtain ⟨x, l⟩ := q
        rw [hp] at hd
        simp only at hd ⊢
        by_cases hg : c.gives = some x
        · rw [if_pos hg] at hd; exact absurd rfl hd
        · obtain ⟨a, h, v, g1, g2, g3, g4, g5, g6, g7, g8⟩ := H.at_place M hm hp
          simp only [g1, if_neg hg]
          rw [direct_step M g3 g4 g7 g8 hg]
          exact H.call _
end

end Trees
