import Verif.Proof.NatStep
import Verif.Proof.RcLook
/-
Node identity: the machine with tagged items refines the store of tagged values.
-/
namespace Trees
set_option linter.unusedSimpArgs false
set_option linter.unusedVariables false
variable {α β τ : Type}

/-! ### Invariants do not depend on the items -/

section
variable {C : NCtx β α} {L : Heap β} {H : Heap α}

theorem LRel.used (r : LRel C L H) : L.Used = H.Used := by
  funext a
  simp only [Heap.Used, r.live, ← r.data a, Data.mapD_isNone]

theorem LRel.val (r : LRel C L H) (a : Addr) : H.val a = (L.val a).map C.g := by
  simp only [Heap.val, ← r.data a, Data.mapD_val]

theorem LRel.isVal (r : LRel C L H) (a : Addr) : L.IsVal a ↔ H.IsVal a := by
  simp only [Heap.IsVal, ← r.data a, Data.mapD_val, Option.isSome_map]

theorem LRel.inv {K} (r : LRel C L H) (hI : Inv H K) : Inv L K := by
  have hu := r.used
  refine ⟨⟨?_, ?_, ?_, ?_, ?_, ?_, ?_⟩, ?_, ?_⟩
  · rw [hu, r.head]; exact hI.l.head
  · rw [hu, r.tail]; exact hI.l.tail
  · rw [hu, r.up]; exact hI.l.mem
  · rw [hu, r.up]; exact hI.l.upU
  · rw [hu, r.prev, r.next]; exact hI.l.links
  · exact hI.l.nodup
  · rw [hu, r.up, r.prev, r.next]; exact hI.l.root
  · have := hI.s; simp only [SzInv] at this ⊢; rw [hu, r.size]; exact this
  · have := hI.b; simp only [Bnd] at this ⊢; rw [hu, r.nextAddr]; exact this

theorem LRel.owned (r : LRel C L H) (a : Addr) (d : Data β) : Owned H a (d.mapD C.g) → Owned L a d := by
  cases d <;> simp only [Data.mapD, Owned, r.count, r.vec] <;> exact id

theorem LRel.sinv (r : LRel C L H) (hS : SInv H) : SInv L := by
  have hu := r.used
  have hb : L.usedB = H.usedB := by funext a; simp only [Heap.usedB, r.live, ← r.data a, Data.mapD_isNone]
  refine ⟨?_, ?_, ?_, ?_, ?_, ?_, ?_⟩
  · rw [r.live, r.nextAddr]; exact hS.liveB
  · rw [r.vec, r.nextVec, r.nextAddr]; exact hS.vecB
  · intro v nv; rw [r.vec]; simp only [usedCnt, hb]; exact hS.cnt v nv
  · rw [r.vec]; exact hS.pos
  · rw [r.vec]; exact hS.disj
  · intro a; rw [hu]; intro ha
    exact r.owned a _ (by rw [r.data a]; exact hS.owner a ha)
  · rw [r.live, r.vec, hu]; exact hS.tight

theorem LRel.hok (r : LRel C L H) {hd : Handle} (h : HOK H hd) : HOK L hd := by
  refine ⟨by rw [r.used]; exact h.used, by rw [r.up]; exact h.root, ?_⟩
  have hn : ∀ a, H.val a = none → L.val a = none := by
    intro a ha; rw [r.val a] at ha; simpa using ha
  cases hd with
  | tree a => exact (r.isVal a).mpr h.kind
  | forest a => exact hn a h.kind
  | iter a => exact hn a h.kind
end

theorem MRel.minv {C : NCtx β α} {m : Machine β} {m' : Machine α} {K} (r : MRel C m m') (M : MInv m' K) : MInv m K := by
  refine ⟨r.heap.inv M.inv, r.heap.sinv M.st, ?_, ?_, ?_, ?_, ?_⟩
  · intro a c hc; exact (r.heap.isVal c).mpr (M.kv a c hc)
  · intro x hd; rw [r.env]; intro h; exact r.heap.hok (M.hnd x hd h)
  · rw [r.env]; exact M.dist
  · rw [r.env, r.heap.used, r.heap.up]; exact M.all
  · rw [r.env, r.fresh]; exact M.fr

/-! ### Reading with identities -/

/-- What a handle denotes, for an arbitrary assignment of values to nodes. -/
def HDenV (v : Addr → Option β) (K : Addr → List Addr) : Handle → Val β → Prop
  | .tree r, .tree t => Den v K r t
  | .forest r, .forest ts => DenL v K (K r) ts
  | .iter r, .iter ts => DenL v K (K r) ts
  | _, _ => False

theorem HDenV_val {h : Heap α} {K} {hd : Handle} {v : Val α} : HDenV h.val K hd v ↔ HDen h K hd v := by
  cases hd <;> cases v <;> exact Iff.rfl

mutual
theorem Den.mapF {v : Addr → Option α} {K} (f : α → β) : ∀ {a : Addr} {t : RTree α}, Den v K a t →
    Den (fun a => (v a).map f) K a (t.map f)
  | a, .node d ts, h => by
    rw [Den_node] at h
    simp only [RTree.map, Den_node, h.1, Option.map_some, true_and]
    exact DenL.mapF f h.2
theorem DenL.mapF {v : Addr → Option α} {K} (f : α → β) : ∀ {as : List Addr} {ts : List (RTree α)}, DenL v K as ts →
    DenL (fun a => (v a).map f) K as (RTree.mapL f ts)
  | [], [], _ => by simp [DenL]
  | [], _ :: _, h => by simp [DenL] at h
  | _ :: _, [], h => by simp [DenL] at h
  | a :: as, t :: ts, h => by
    rw [DenL_cons] at h
    simp only [RTree.mapL, DenL_cons]
    exact ⟨Den.mapF f h.1, DenL.mapF f h.2⟩
end

theorem HDenV.mapF {v : Addr → Option α} {K} (f : α → β) {hd : Handle} {w : Val α} (h : HDenV v K hd w) :
    HDenV (fun a => (v a).map f) K hd (w.map f) := by
  cases hd <;> cases w <;> simp only [HDenV] at h
  · exact Den.mapF f h
  · exact DenL.mapF f h
  · exact DenL.mapF f h

theorem HDenV.readLab {h : Heap α} {K} (hI : Inv h K) {hd : Handle} {v : Val (Addr × α)} (ho : HOK h hd)
    (hden : HDenV h.lab K hd v) : readHandleLab hd h = .ok v h := by
  have key : ∀ (r : Addr) (ts : List (RTree (Addr × α))), h.Used r → DenL h.lab K (K r) ts →
      (M.fuelled fun h => do readMany (Trees.readLab ((h.size r).descendants + 1)) (← children r) : Trees.M α _) h = .ok ts h := by
    intro r ts hr hd
    simp only [M.fuelled_apply, M.bind_apply, children_ok hI hr, Res.bind_ok]
    refine readMany_ok (R := Den h.lab K) ?_ (DenL_forall₂.mp hd)
    intro c hc t ht
    have := hI.desc_lt hc
    exact readLab_ok hI _ (hI.used_of_mem hc) ht (by omega)
  cases hd <;> cases v <;> simp only [HDenV] at hden
  · have e := readNode_ok hI ho.used hden
    simp only [Handle.addr] at e
    simp [readHandleLab, e]
  · rename_i r t
    simp only [readHandleLab, M.bind_apply, key r t ho.used hden]; rfl
  · rename_i r t
    simp only [readHandleLab, M.bind_apply, key r t ho.used hden]; rfl

section
variable {m : Machine α} {K : Addr → List Addr}

theorem MInv.lview_den (M : MInv m K) {x : Var} {hd : Handle} (hx : m.env x = some hd) :
    ∃ v, m.lview x = some v ∧ HDenV m.heap.lab K hd v := by
  have ho := M.hnd x hd hx
  obtain ⟨ts, hts⟩ := M.inv.exists_den m.heap.lab (fun a c hc => by
    obtain ⟨d, e⟩ := Heap.isVal_iff.mp (M.kv a c hc); simp [Heap.lab, e]) ho.used
  have : ∃ v, HDenV m.heap.lab K hd v := by
    cases hd with
    | tree r =>
      obtain ⟨d, e⟩ := Heap.isVal_iff.mp ho.kind
      exact ⟨.tree (.node (r, d) ts), by simp [HDenV, Heap.lab, e]; exact hts⟩
    | forest r => exact ⟨.forest ts, hts⟩
    | iter r => exact ⟨.iter ts, hts⟩
  obtain ⟨v, hv⟩ := this
  exact ⟨v, by simp [Machine.lview, hx, hv.readLab M.inv ho], hv⟩

theorem MInv.view_of_den (M : MInv m K) {x : Var} {hd : Handle} (hx : m.env x = some hd) {v : Val α}
    (hv : HDenV m.heap.val K hd v) : m.view x = some v := by
  simp [Machine.view, hx, (HDenV_val.mp hv).read M.inv (M.hnd x hd hx)]

/-- Forgetting the identities gives the contents. -/
theorem MInv.lview_snd (M : MInv m K) (x : Var) : (m.lview x).map (Val.map Prod.snd) = m.view x := by
  cases hx : m.env x with
  | none => simp [Machine.lview, Machine.view, hx]
  | some hd =>
    obtain ⟨v, e, hv⟩ := M.lview_den hx
    rw [e, Option.map_some, M.view_of_den hx]
    have := hv.mapF Prod.snd
    have e2 : (fun a => (m.heap.lab a).map Prod.snd) = m.heap.val := by
      funext a; simp only [Heap.lab, Option.map_map]; cases m.heap.val a <;> rfl
    rwa [e2] at this
end

/-! ### Tagged items -/

/-- Items tagged with the node that they are in. -/
def tagC (tag : Addr → τ) (V : τ → Prop) (a0 v0 : Nat) (h : ∀ a t, a0 ≤ a → V t → t = tag a) : NCtx (τ × α) α :=
  ⟨Prod.snd, fun a b => b.1 = tag a, fun b => V b.1, a0, v0, fun a b h1 h2 => h a b.1 h1 h2⟩

theorem map_pair_snd (t : τ) (l : List α) : (l.map fun d => (t, d)).map Prod.snd = l := by
  rw [List.map_map]; exact List.map_id _

/-- Put the tags on the items. -/
def Heap.relabel (tag : Addr → τ) (lg : List (τ × α)) (h : Heap α) : Heap (τ × α) :=
  { live := h.live, prev := h.prev, next := h.next, head := h.head, tail := h.tail, up := h.up, size := h.size,
    data := fun a => (h.data a).mapD fun d => (tag a, d), count := h.count, borrow := h.borrow, vec := h.vec,
    nextAddr := h.nextAddr, nextVec := h.nextVec, log := lg }

/-- Put the tags on the items. -/
def Machine.relabel (tag : Addr → τ) (lg : List (τ × α)) (m : Machine α) : Machine (τ × α) :=
  ⟨m.heap.relabel tag lg, m.env, m.fresh⟩

theorem Data.mapD_mapD {γ : Type} (f : α → β) (g : β → γ) (d : Data α) : (d.mapD f).mapD g = d.mapD (fun x => g (f x)) := by
  cases d <;> rfl
theorem Data.mapD_id (d : Data α) : d.mapD (fun x => x) = d := by cases d <;> rfl

section
variable {tag : Addr → τ} {lg : List (τ × α)} {V : τ → Prop} {a0 v0 : Nat} {h : ∀ a t, a0 ≤ a → V t → t = tag a}

theorem lrel_relabel {H : Heap α} (h0 : lg.map Prod.snd = H.log) (h1 : a0 ≤ H.nextAddr) (h2 : v0 ≤ H.nextVec)
    (h3 : ∀ v nv, v0 ≤ v → H.vec v = some nv → a0 ≤ nv.base) : LRel (tagC tag V a0 v0 h) (H.relabel tag lg) H where
  live := rfl
  prev := rfl
  next := rfl
  head := rfl
  tail := rfl
  up := rfl
  size := rfl
  count := rfl
  borrow := rfl
  vec := rfl
  nextAddr := rfl
  nextVec := rfl
  log := h0
  data a := by simp only [Heap.relabel, Data.mapD_mapD, tagC]; exact Data.mapD_id _
  lab a b hb := by
    simp only [Heap.relabel, Data.mapD_val, Option.map_eq_some_iff] at hb
    obtain ⟨d, _, rfl⟩ := hb
    rfl
  hi := h1
  hv := h2
  blk := h3

/-- The items of the tagged heap. -/
theorem LRel.lab_val {L : Heap (τ × α)} {H : Heap α} (r : LRel (tagC tag V a0 v0 h) L H) :
    L.val = fun a => (H.lab a).map fun q => (tag q.1, q.2) := by
  funext a
  have e := r.val a
  simp only [Heap.lab, e, Option.map_map]
  cases hb : L.val a with
  | none => rfl
  | some b =>
    have : b.1 = tag a := r.lab a b hb
    simp only [Option.map_some, Function.comp, tagC, ← this]

/-- What the tagged machine shows. -/
theorem MRel.view_tag {lm : Machine (τ × α)} {m : Machine α} {K} (r : MRel (tagC tag V a0 v0 h) lm m) (M : MInv m K) (x : Var) :
    lm.view x = (m.lview x).map (Val.map fun q => (tag q.1, q.2)) := by
  cases hx : m.env x with
  | none => simp [Machine.lview, Machine.view, r.env, hx]
  | some hd =>
    obtain ⟨v, e, hv⟩ := M.lview_den hx
    rw [e, Option.map_some, (r.minv M).view_of_den (by rw [r.env]; exact hx)]
    rw [r.heap.lab_val]
    exact hv.mapF _
end

/-! ### Access to one node -/

/-- What is known about the node that a call finds. -/
theorem MInv.onNode_at {m : Machine α} {K : Addr → List Addr} {S : Store α} (M : MInv m K) (A : Abs m K S) {x : Var} {l : Loc} {n : Addr}
    (hn : ∀ k : Addr → Outcome (Machine α) α, m.onNode x l k = k n) :
    ∃ v t, S.vars x = some v ∧ v.at? l = some t ∧ Den m.heap.val K n t := by
  have hA := A.vars x
  cases hx : m.env x with
  | none => have := hn fun _ => .bad; simp [Machine.onNode, hx] at this
  | some hd =>
    rw [hx] at hA
    obtain ⟨v, e, hv⟩ := hA
    have ho := M.hnd x hd hx
    have hn' := hn fun a => .ok { m with fresh := a } .unit
    have hn'' := hn fun _ => .bad
    simp only [Machine.onNode, hx] at hn' hn''
    cases hit : hd.isIter with
    | true => simp [hit] at hn''
    | false =>
      simp only [hit, Bool.false_eq_true, if_false] at hn' hn''
      cases l with
      | root =>
        cases hd with
        | tree r =>
          simp at hn'
          subst hn'
          cases v with
          | tree t => exact ⟨_, t, e, rfl, hv⟩
          | forest _ => exact hv.elim
          | iter _ => exact hv.elim
        | forest r => simp at hn''
        | iter r => simp [Handle.isIter] at hit
      | child q i =>
        simp only [Machine.run, locate_ok M.inv ho.used] at hn' hn''
        rw [resolve_append] at hn' hn''
        have hr := resolve_kidsAt (p := q) hv.kids
        cases hq : resolve K hd.addr q with
        | none => rw [hq] at hn''; simp at hn''
        | some u =>
          rw [hq] at hr hn' hn''
          obtain ⟨us, h1, h2⟩ := hr
          simp only [Option.bind_some, resolve] at hn' hn''
          rcases h2.get i with ⟨g1, g2⟩ | ⟨c, t, g1, g2, g3⟩
          · simp [g1] at hn''
          · simp [g1] at hn'
            subst hn'
            exact ⟨v, t, e, by simp [Val.at?, h1, g2], g3⟩

theorem ORelN.onNode' {C : NCtx β α} {m : Machine β} {m' : Machine α} (r : MRel C m m') {x : Var} {l : Loc}
    {k : Addr → Outcome (Machine β) β} {k' : Addr → Outcome (Machine α) α}
    (hk : ∀ n, (∀ k : Addr → Outcome (Machine β) β, m.onNode x l k = k n) → ORelN C (k n) (k' n)) :
    ORelN C (m.onNode x l k) (m'.onNode x l k') := by
  cases he : m.env x with
  | none =>
    have he' := he
    rw [r.env] at he'
    simp only [Machine.onNode, he, he']; trivial
  | some hd =>
    have he' := he
    rw [r.env] at he'
    cases hit : hd.isIter with
    | true => simp only [Machine.onNode, he, he', hit, if_true]; trivial
    | false =>
      cases l with
      | root =>
        simp only [Machine.onNode, he, he', hit, Bool.false_eq_true, if_false] at hk ⊢
        cases hd with
        | tree r => exact hk r fun _ => rfl
        | forest r => trivial
        | iter r => trivial
      | child q i =>
        simp only [Machine.onNode, he, he', hit, Bool.false_eq_true, if_false, Machine.run] at hk ⊢
        have h := nat_locate (C := C) (q ++ [i]) hd.addr _ _ r.heap
        revert h hk
        generalize locate hd.addr (q ++ [i]) m.heap = q1
        generalize locate hd.addr (q ++ [i]) m'.heap = q2
        intro hk h
        match q1, q2, h with
        | .ok b L, .ok b' H, h =>
          obtain ⟨rfl, h⟩ := h
          cases b with
          | none => exact ⟨r, rfl⟩
          | some n => exact hk n fun _ => rfl
        | .err er L, .err er' H, h =>
          obtain ⟨rfl, h⟩ := h
          cases er with
          | panic => exact ⟨h, r.env, r.fresh⟩
          | ub => trivial
          | fuel => trivial
          | alloc => trivial

/-! ### Whole calls with tags -/

/-- The state and the result of a call, tagged. -/
def IdRes (tag : Addr → τ) : Outcome (Machine α) α → Outcome (Store (τ × α)) (τ × α) → Prop
  | .ok m o, .ok S o' => (S.vars = fun x => (m.lview x).map (Val.map fun q => (tag q.1, q.2))) ∧ S.fresh = m.fresh ∧
      S.dropped.map Prod.snd = m.heap.log ∧ o'.map Prod.snd = o
  | .panic m, .panic S => (S.vars = fun x => (m.lview x).map (Val.map fun q => (tag q.1, q.2))) ∧ S.fresh = m.fresh ∧
      S.dropped.map Prod.snd = m.heap.log
  | .rejected, .rejected => True
  | _, _ => False

section
variable {tag : Addr → τ} {lg : List (τ × α)} {V : τ → Prop} {a0 v0 : Nat} {h : ∀ a t, a0 ≤ a → V t → t = tag a}
variable {lm : Machine (τ × α)} {m : Machine α} {K : Addr → List Addr} {opL : Op (τ × α)} {op : Op α}

theorem idRes_state {lm' : Machine (τ × α)} {m' : Machine α} {K' K'' S} (r : MRel (tagC tag V a0 v0 h) lm' m') (M : MInv m' K')
    (M'' : MInv lm' K'') (A : Abs lm' K'' S) : (S.vars = fun x => (m'.lview x).map (Val.map fun q => (tag q.1, q.2))) ∧
      S.fresh = m'.fresh ∧ S.dropped.map Prod.snd = m'.heap.log := by
  have e := A.store_eq M''
  refine ⟨?_, ?_, ?_⟩
  · rw [← e]; funext x; exact r.view_tag M x
  · rw [← e]; exact r.fresh
  · rw [← e]; exact r.heap.log

theorem idRes_core {S : Store (τ × α)} (r : MRel (tagC tag V a0 v0 h) lm m) (M : MInv m K) (A : Abs lm K S)
    (hs : ORelN (tagC tag V a0 v0 h) (step lm opL) (step m op)) : IdRes tag (step m op) (specStep S opL) := by
  have h1 := step_refines M M.abs_store op
  have h2 := step_refines (r.minv M) A opL
  revert h1 h2 hs
  generalize step m op = o1
  generalize step lm opL = o2
  generalize specStep m.store op = o3
  generalize specStep S opL = o4
  intro h0 h1 h2
  match o2, o1, h0, o3, h1, o4, h2 with
  | .ok lm' a, .ok m' b, h0, .ok S1 b', h1, .ok S2 a', h2 =>
    obtain ⟨_, K1, M1, A1⟩ := h1
    obtain ⟨e, K2, M2, A2⟩ := h2
    subst e
    obtain ⟨g1, g2, g3⟩ := idRes_state h0.1 M1 M2 A2
    exact ⟨g1, g2, g3, h0.2⟩
  | .panic lm', .panic m', h0, .panic S1, h1, .panic S2, h2 =>
    obtain ⟨K1, M1, A1⟩ := h1
    obtain ⟨K2, M2, A2⟩ := h2
    exact idRes_state h0 M1 M2 A2
  | .rejected, .rejected, h0, .rejected, h1, .rejected, h2 => trivial

theorem ORelN.setData {S : Store (τ × α)} (r : MRel (tagC tag V a0 v0 h) lm m) (M : MInv m K) (A : Abs lm K S) {x : Var} {l : Loc} (d : α)
    {t : τ} (ht : ∀ v u, S.vars x = some v → v.at? l = some u → t = u.data.1) :
    ORelN (tagC tag V a0 v0 h) (step lm (.setData x l (t, d))) (step m (.setData x l d)) := by
  simp only [step]
  refine .onNode' r fun n hn => ?_
  obtain ⟨v, u, h1, h2, h3⟩ := (r.minv M).onNode_at A hn
  have hu := ht v u h1 h2
  refine .run r r.env (nat_dataMutSet ⟨rfl, ?_⟩) fun _ _ _ _ _ l => .ok r r.env l rfl
  subst hu
  cases u with
  | node b ts =>
    rw [Den_node] at h3
    exact r.heap.lab n b h3.1
end

/-- The context of the tags of the nodes that exist in `m`. -/
abbrev tagM (m : Machine α) (hS : SInv m.heap) : NCtx (Option Nat × α) α :=
  tagC m.tag (· = none) m.heap.nextAddr m.heap.nextVec fun a t h1 h2 => by
    subst h2
    simp only [Machine.tag]
    rw [if_neg]
    intro h
    have := hS.liveB a h
    exact absurd (Nat.lt_of_le_of_lt h1 this) (Nat.lt_irrefl _)

section
variable {m : Machine α} {K : Addr → List Addr}

theorem mrel_relabel {tag : Addr → τ} {lg : List (τ × α)} {V : τ → Prop} {h} (hS : SInv m.heap) (h0 : lg.map Prod.snd = m.heap.log) :
    MRel (tagC tag V m.heap.nextAddr m.heap.nextVec h) (m.relabel tag lg) m := by
  refine ⟨lrel_relabel h0 (Nat.le_refl _) (Nat.le_refl _) ?_, rfl, rfl⟩
  intro v nv h1 h2
  have := (hS.vecB v nv h2).1
  omega

theorem tags_store (M : MInv m K) : (m.relabel m.tag (m.heap.log.map fun d => (none, d))).store = m.tags m := by
  have r : MRel (tagM m M.st) (m.relabel m.tag (m.heap.log.map fun d => (none, d))) m := mrel_relabel M.st (map_pair_snd _ _)
  simp only [Machine.store, Machine.tags, Store.mk.injEq]
  exact ⟨funext fun x => r.view_tag M x, rfl, rfl⟩

theorem tags_abs (M : MInv m K) : Abs (m.relabel m.tag (m.heap.log.map fun d => (none, d))) K (m.tags m) := by
  have r : MRel (tagM m M.st) (m.relabel m.tag (m.heap.log.map fun d => (none, d))) m := mrel_relabel M.st (map_pair_snd _ _)
  rw [← tags_store M]
  exact (r.minv M).abs_store

theorem ident_abandon (M : MInv m K) (x : Var) : IdRes m.tag (step m (.abandon x)) (tagStep (m.tags m) (.abandon x)) := by
  have r : MRel (tagM m M.st) (m.relabel m.tag (m.heap.log.map fun d => (none, d))) m := mrel_relabel M.st (map_pair_snd _ _)
  have A := tags_abs M
  have ML := r.minv M
  have hA := A.vars x
  simp only [step, tagStep]
  cases hx : m.env x with
  | none =>
    have : (m.relabel m.tag (m.heap.log.map fun d => (none, d))).env x = none := hx
    rw [this] at hA; simp only at hA; simp only [hA]; trivial
  | some hd =>
    have hxL : (m.relabel m.tag (m.heap.log.map fun d => (none, d))).env x = some hd := hx
    rw [hxL] at hA
    obtain ⟨v, e, hv⟩ := hA
    rw [e]
    have ho := M.hnd x hd hx
    cases hd <;> cases v <;> simp only [HDen] at hv
    · rename_i a t
      cases t with
      | node b ts =>
        have hv' := hv
        rw [Den_node] at hv'
        have hm : m.heap.val a = some b.2 := by rw [r.heap.val a, hv'.1]; rfl
        obtain ⟨h', e', hI, hS, hU, hval, hup, hlog, hK⟩ := abandon_ok M.inv M.st ho.used hm
        simp only [Handle.addr] at e'
        simp only [Machine.run, e']
        obtain ⟨-, K1, M1, A1⟩ := sim_abandon M M.abs_store hx (ts := ts.map (RTree.map Prod.snd)) (d0 := b.2) (d := b.2) (by
          have := Den.mapF Prod.snd hv
          have e2 : (fun a => ((m.relabel m.tag (m.heap.log.map fun d => (none, d))).heap.val a).map Prod.snd) = m.heap.val := by
            funext a; rw [r.heap.val a]; rfl
          rw [e2] at this
          simpa [RTree.mapL_eq] using this) rfl hI hS hU hval hup hlog hK
        -- the new heap with tags
        have r' : LRel (tagM m M.st) (h'.relabel m.tag (m.heap.log.map fun d => (none, d))) h' := by
          obtain ⟨lm2, hl2⟩ : ∃ lm2, LRel (tagC (α := α) (fun _ => ()) (fun _ => True) m.heap.nextAddr m.heap.nextVec (fun _ _ _ _ => rfl)) lm2 h' := by
            have r0 : LRel (tagC (α := α) (fun _ => ()) (fun _ => True) m.heap.nextAddr m.heap.nextVec (fun _ _ _ _ => rfl))
              (m.heap.relabel (fun _ => ()) (m.heap.log.map fun d => ((), d))) m.heap := (mrel_relabel M.st (map_pair_snd _ _)).heap
            have := nat_abandon (fun _ _ _ => trivial) a _ _ r0
            rw [e'] at this
            cases hq : abandon a (m.heap.relabel (fun _ => ()) (m.heap.log.map fun d => ((), d))) <;> rw [hq] at this <;> simp only [LRes] at this
            exact ⟨_, this.2⟩
          exact lrel_relabel (by rw [hlog]; exact map_pair_snd _ _) (by rw [← hl2.nextAddr]; exact hl2.hi) (by rw [← hl2.nextVec]; exact hl2.hv)
            (fun v nv h1 h2 => hl2.blk v nv h1 (by rw [hl2.vec]; exact h2))
        have hnew : m.tag m.heap.nextAddr = none := by
          simp only [Machine.tag]; rw [if_neg]; intro hh
          exact absurd (M.st.liveB _ hh) (Nat.lt_irrefl _)
        have hvL : (h'.relabel m.tag (m.heap.log.map fun d => (none, d))).val = upd (upd (m.relabel m.tag (m.heap.log.map fun d => (none, d))).heap.val a none) m.heap.nextAddr (some (none, b.2)) := by
          rw [r'.lab_val, r.heap.lab_val]
          funext c
          simp only [Heap.lab, hval, upd_apply, Handle.addr]
          split
          · rename_i hc; subst hc; simp [hnew]
          · by_cases hc : c = a
            · simp only [hc, if_true]; rfl
            · simp only [hc, if_false]
        have key := sim_abandon ML A hxL hv (d := (none, b.2)) (h' := h'.relabel m.tag (m.heap.log.map fun d => (none, d))) (n := m.heap.nextAddr) rfl
          (r'.inv hI) (r'.sinv hS) (by
            intro y
            rw [r'.used, r.heap.used]; exact hU y) hvL hup rfl (by
            intro y hy; rw [r.heap.used] at hy; exact hK y hy)
        obtain ⟨-, K2, M2, A2⟩ := key
        have r2 : MRel (tagM m M.st) (⟨h'.relabel m.tag (m.heap.log.map fun d => (none, d)), upd ((m.relabel m.tag (m.heap.log.map fun d => (none, d))).setEnv x (some (.tree m.heap.nextAddr))) m.fresh (some (.forest a)), m.fresh + 1⟩ : Machine _)
          (⟨h', upd (m.setEnv x (some (.tree m.heap.nextAddr))) m.fresh (some (.forest a)), m.fresh + 1⟩ : Machine α) := ⟨r', rfl, rfl⟩
        obtain ⟨g1, g2, g3⟩ := idRes_state r2 M1 M2 A2
        exact ⟨g1, g2, g3, rfl⟩
    · trivial
    · trivial

/-- **Identity.** Every call does to the tagged contents what `tagStep` says. -/
theorem ident_step (M : MInv m K) (op : Op α) : IdRes m.tag (step m op) (tagStep (m.tags m) op) := by
  have r : MRel (tagM m M.st) (m.relabel m.tag (m.heap.log.map fun d => (none, d))) m := mrel_relabel M.st (map_pair_snd _ _)
  have A := tags_abs M
  have go : ∀ opL, OpRel (tagM m M.st) opL op → IdRes m.tag (step m op) (specStep (m.tags m) opL) :=
    fun opL ho => idRes_core r M A (nat_step r ho)
  cases op with
  | abandon x => exact ident_abandon M x
  | setData x l d =>
    refine idRes_core r M A (ORelN.setData r M A d ?_)
    intro v u h1 h2
    simp only [Store.tagAt, h1, Option.bind_some, h2]
  | treeNew d => simp only [tagStep]; refine go _ ?_; exact ⟨rfl, rfl⟩
  | forestNew => simp only [tagStep]; refine go _ ?_; exact trivial
  | pushFront x p y => simp only [tagStep]; refine go _ ?_; exact ⟨rfl, rfl, rfl⟩
  | pushBack x p y => simp only [tagStep]; refine go _ ?_; exact ⟨rfl, rfl, rfl⟩
  | popFront x p => simp only [tagStep]; refine go _ ?_; exact ⟨rfl, rfl⟩
  | popBack x p => simp only [tagStep]; refine go _ ?_; exact ⟨rfl, rfl⟩
  | prepend x p y => simp only [tagStep]; refine go _ ?_; exact ⟨rfl, rfl, rfl⟩
  | append x p y => simp only [tagStep]; refine go _ ?_; exact ⟨rfl, rfl, rfl⟩
  | insertPrevSib x l y => simp only [tagStep]; refine go _ ?_; exact ⟨rfl, rfl, rfl⟩
  | insertNextSib x l y => simp only [tagStep]; refine go _ ?_; exact ⟨rfl, rfl, rfl⟩
  | detach x l => simp only [tagStep]; refine go _ ?_; exact ⟨rfl, rfl⟩
  | drop x => simp only [tagStep]; refine go _ ?_; exact rfl
  | intoIter x => simp only [tagStep]; refine go _ ?_; exact rfl
  | iterNext x => simp only [tagStep]; refine go _ ?_; exact rfl
  | iterLen x => simp only [tagStep]; refine go _ ?_; exact rfl
  | data x l => simp only [tagStep]; refine go _ ?_; exact ⟨rfl, rfl⟩
  | degree x p => simp only [tagStep]; refine go _ ?_; exact ⟨rfl, rfl⟩
  | nodeCount x p => simp only [tagStep]; refine go _ ?_; exact ⟨rfl, rfl⟩
  | hasNoChild x p => simp only [tagStep]; refine go _ ?_; exact ⟨rfl, rfl⟩
  | childData x p => simp only [tagStep]; refine go _ ?_; exact ⟨rfl, rfl⟩
  | frontData x p => simp only [tagStep]; refine go _ ?_; exact ⟨rfl, rfl⟩
  | backData x p => simp only [tagStep]; refine go _ ?_; exact ⟨rfl, rfl⟩
  | mapBfs x l f => simp only [tagStep]; refine go _ ?_; exact ⟨rfl, rfl, fun _ _ => ⟨rfl, rfl⟩⟩
  | mapBfsForest x p f => simp only [tagStep]; refine go _ ?_; exact ⟨rfl, rfl, fun _ _ => ⟨rfl, rfl⟩⟩
  | rebuild x f => simp only [tagStep]; refine go _ ?_; exact ⟨rfl, fun _ _ => ⟨rfl, rfl⟩⟩
  | bfs x l k => simp only [tagStep]; refine go _ ?_; exact ⟨rfl, rfl, rfl⟩
  | bfsChildren x p k => simp only [tagStep]; refine go _ ?_; exact ⟨rfl, rfl, rfl⟩
  | intoBfs x k => simp only [tagStep]; refine go _ ?_; exact ⟨rfl, rfl⟩
  | bfsMut x l k f => simp only [tagStep]; refine go _ ?_; exact ⟨rfl, rfl, rfl, fun _ _ _ hb => ⟨rfl, hb⟩⟩
  | bfsChildrenMut x p k f => simp only [tagStep]; refine go _ ?_; exact ⟨rfl, rfl, rfl, fun _ _ _ hb => ⟨rfl, hb⟩⟩
  | treeFromTuple t => simp only [tagStep]; refine go _ ?_; exact ⟨_, fun d => (none, d), id, t, fun _ => ⟨rfl, rfl⟩, rfl, (Tup.map_same t).symm⟩
  | forestFromTuple ts => simp only [tagStep]; refine go _ ?_; exact ⟨_, fun d => (none, d), id, ts, fun _ => ⟨rfl, rfl⟩, rfl, (Tup.mapL_same ts).symm⟩
end

/-! ### Whole calls with addresses -/

mutual
theorem RTree.map_same : ∀ t : RTree α, t.map id = t
  | .node d ts => by simp only [RTree.map, RTree.mapL_same ts]; rfl
theorem RTree.mapL_same : ∀ ts : List (RTree α), RTree.mapL id ts = ts
  | [] => rfl
  | t :: ts => by simp only [RTree.mapL, RTree.map_same t, RTree.mapL_same ts]
end

theorem Val.map_same (v : Val α) : v.map id = v := by
  cases v <;> simp only [Val.map, RTree.map_same, RTree.mapL_same]

theorem shows_step {m : Machine α} {K : Addr → List Addr} {S : Store (Addr × α)} (M : MInv m K) (hS : m.Shows S) {op : Op α} {opL : Op (Addr × α)}
    (ho : op.onNodes S = some opL) : IdRes id (step m op) (specStep S opL) := by
  have r : MRel (tagC (α := α) (id : Addr → Addr) (fun _ => False) m.heap.nextAddr m.heap.nextVec (fun _ _ _ h => h.elim))
    (m.relabel id S.dropped) m := mrel_relabel M.st hS.log
  have A : Abs (m.relabel id S.dropped) K S := by
    have : (m.relabel id S.dropped).store = S := by
      cases S with
      | mk vars fresh dropped =>
        have h1 := hS.vars
        have h2 := hS.fresh
        simp only at h1 h2
        subst h1 h2
        simp only [Machine.store, Store.mk.injEq]
        refine ⟨funext fun x => ?_, rfl, rfl⟩
        refine (r.view_tag M x).trans ?_
        have : (Val.map fun (q : Addr × α) => (id q.1, q.2)) = id := by
          funext v
          have e : (fun (q : Addr × α) => (id q.1, q.2)) = id := rfl
          rw [e]
          exact v.map_same
        rw [this]; simp
    rw [← this]
    exact (r.minv M).abs_store
  have go : ∀ opL, OpRel (tagC (α := α) (id : Addr → Addr) (fun _ => False) m.heap.nextAddr m.heap.nextVec (fun _ _ _ h => h.elim)) opL op →
      IdRes id (step m op) (specStep S opL) := fun opL ho => idRes_core r M A (nat_step r ho)
  cases op <;> simp only [Op.onNodes, Option.some.injEq, reduceCtorEq, Option.map_eq_some_iff] at ho
  case setData x l d =>
    obtain ⟨a, h1, rfl⟩ := ho
    refine idRes_core r M A (ORelN.setData r M A d ?_)
    intro v u h2 h3
    simp only [Store.nodeOf, h2, Option.bind_some, h3, Option.map_some, Option.some.injEq] at h1
    exact h1.symm
  all_goals subst ho
  all_goals refine go _ ?_
  all_goals first
    | exact trivial
    | exact rfl
    | exact ⟨rfl, rfl⟩
    | exact ⟨rfl, rfl, rfl⟩
    | exact ⟨rfl, rfl, rfl, fun _ _ _ hb => ⟨rfl, hb⟩⟩

/-! ### Nodes are different -/

theorem Val.nodes_eq (v : Val α) : v.nodes = match v with
    | .tree t => t.pre
    | .forest ts => RTree.preL ts
    | .iter ts => RTree.preL ts := by cases v <;> rfl

mutual
theorem pre_map' (f : α → β) : ∀ t : RTree α, (t.map f).pre = t.pre.map f
  | .node d ts => by simp only [RTree.map, RTree.pre, List.map_cons, preL_map' f ts]
theorem preL_map' (f : α → β) : ∀ ts : List (RTree α), RTree.preL (RTree.mapL f ts) = (RTree.preL ts).map f
  | [] => rfl
  | t :: ts => by simp only [RTree.mapL, RTree.preL, List.map_append, pre_map' f t, preL_map' f ts]
end

mutual
theorem Den.mono {v v' : Addr → Option α} {K} (hv : ∀ a d, v a = some d → v' a = some d) : ∀ {a : Addr} {t : RTree α}, Den v K a t → Den v' K a t
  | a, .node d ts, h => by rw [Den_node] at h ⊢; exact ⟨hv _ _ h.1, DenL.mono hv h.2⟩
theorem DenL.mono {v v' : Addr → Option α} {K} (hv : ∀ a d, v a = some d → v' a = some d) : ∀ {as : List Addr} {ts : List (RTree α)}, DenL v K as ts → DenL v' K as ts
  | [], [], _ => by simp [DenL]
  | [], _ :: _, h => by simp [DenL] at h
  | _ :: _, [], h => by simp [DenL] at h
  | a :: as, t :: ts, h => by rw [DenL_cons] at h ⊢; exact ⟨Den.mono hv h.1, DenL.mono hv h.2⟩
end

theorem MInv.lview_nodes {m : Machine α} {K : Addr → List Addr} (M : MInv m K) {x : Var} {v : Val (Addr × α)} (hv : m.lview x = some v) :
    (v.nodes.map Prod.fst).Nodup ∧ ∃ hd, m.env x = some hd ∧ ∀ a ∈ v.nodes.map Prod.fst, m.heap.Used a ∧ Reach K hd.addr a := by
  cases hx : m.env x with
  | none => simp [Machine.lview, hx] at hv
  | some hd =>
    obtain ⟨w, e, hw⟩ := M.lview_den hx
    obtain rfl : w = v := Option.some.inj (e.symm.trans hv)
    have ho := M.hnd x hd hx
    have hmono : ∀ a d, (fun a => (m.heap.lab a).map Prod.fst) a = some d → (fun a : Addr => some a) a = some d := by
      intro a d h
      simp only [Heap.lab, Option.map_map, Option.map_eq_some_iff] at h
      obtain ⟨y, _, rfl⟩ := h; rfl
    have key : ∀ (r : Addr) (ts : List (RTree (Addr × α))), m.heap.Used r → DenL m.heap.lab K (K r) ts →
        ((RTree.preL ts).map Prod.fst).Nodup ∧ ∀ a ∈ (RTree.preL ts).map Prod.fst, m.heap.Used a ∧ Reach K r a := by
      intro r ts hr h
      have h1 := DenL.mono hmono (h.mapF Prod.fst)
      obtain ⟨g1, g2⟩ := M.inv.nodup_preL (a := r) (fun c hc => hc) (M.inv.l.nodup r) h1
      rw [preL_map'] at g1 g2
      refine ⟨g1, fun a ha => ?_⟩
      obtain ⟨c, hc, hca⟩ := g2 a ha
      have : Reach K r a := .step hc hca
      exact ⟨M.inv.reach_used hr this, this⟩
    cases hd <;> cases w <;> simp only [HDenV] at hw
    · rename_i r t
      have h1 := Den.mono hmono (hw.mapF Prod.fst)
      obtain ⟨g1, g2⟩ := M.inv.nodup_pre h1
      rw [pre_map'] at g1 g2
      exact ⟨g1, _, rfl, fun a ha => ⟨M.inv.reach_used ho.used (g2 a ha), g2 a ha⟩⟩
    · rename_i r ts
      obtain ⟨g1, g2⟩ := key r ts ho.used hw
      exact ⟨g1, _, rfl, g2⟩
    · rename_i r ts
      obtain ⟨g1, g2⟩ := key r ts ho.used hw
      exact ⟨g1, _, rfl, g2⟩

theorem MInv.lview_apart {m : Machine α} {K : Addr → List Addr} (M : MInv m K) {x y : Var} {v w : Val (Addr × α)} (hv : m.lview x = some v)
    (hw : m.lview y = some w) (hxy : x ≠ y) : ∀ a ∈ v.nodes.map Prod.fst, a ∉ w.nodes.map Prod.fst := by
  intro a h1 h2
  obtain ⟨_, hd, hx, g1⟩ := M.lview_nodes hv
  obtain ⟨_, hd', hy, g2⟩ := M.lview_nodes hw
  exact hxy (M.dist x y _ _ hx hy (M.inv.root_disjoint (M.hnd x hd hx).root (M.hnd y hd' hy).root (g1 a h1).2 (g2 a h2).2))

end Trees
