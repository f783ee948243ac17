import Verif.Proof.Read
/-
Simulation: the machine running the crate's code refines the store of plain values.
-/
namespace Trees
set_option linter.unusedSimpArgs false
variable {α : Type}

theorem Heap.isVal_iff {h : Heap α} {a : Addr} : h.IsVal a ↔ ∃ d, h.val a = some d := by
  simp [Heap.IsVal, Heap.val, Option.isSome_iff_exists]

/-- Tree roots hold a value, forest roots do not. -/
def HKind (h : Heap α) : Handle → Prop
  | .tree r => h.IsVal r
  | .forest r => h.val r = none
  | .iter r => h.val r = none

/-- A handle is the address of a used root node of the right kind. -/
structure HOK (h : Heap α) (hd : Handle) : Prop where
  used : h.Used hd.addr
  root : h.up hd.addr = none
  kind : HKind h hd

/-- What a handle denotes. -/
def HDen (h : Heap α) (K : Addr → List Addr) : Handle → Val α → Prop
  | .tree r, .tree t => Den h.val K r t
  | .forest r, .forest ts => DenL h.val K (K r) ts
  | .iter r, .iter ts => DenL h.val K (K r) ts
  | _, _ => False

/-- Invariant of the machine. -/
structure MInv (m : Machine α) (K : Addr → List Addr) : Prop where
  inv : Inv m.heap K
  st : SInv m.heap
  kv : ∀ a c, c ∈ K a → m.heap.IsVal c
  hnd : ∀ x hd, m.env x = some hd → HOK m.heap hd
  dist : ∀ x y hx hy, m.env x = some hx → m.env y = some hy → hx.addr = hy.addr → x = y
  all : ∀ a, m.heap.Used a → m.heap.up a = none → ∃ x hd, m.env x = some hd ∧ hd.addr = a
  fr : ∀ x, m.fresh ≤ x → m.env x = none

/-- The store a machine state stands for. -/
structure Abs (m : Machine α) (K : Addr → List Addr) (S : Store α) : Prop where
  vars : ∀ x, match m.env x with
    | none => S.vars x = none
    | some hd => ∃ v, S.vars x = some v ∧ HDen m.heap K hd v
  fresh : S.fresh = m.fresh
  log : S.dropped = m.heap.log

theorem HDen.read {h : Heap α} {K : Addr → List Addr} (hI : Inv h K) {hd : Handle} {v : Val α} (ho : HOK h hd)
    (hden : HDen h K hd v) : readHandle hd h = .ok v h := by
  cases hd <;> cases v <;> simp only [HDen] at hden
  · rename_i r t
    simp [readHandle, readTree_ok (a := r) hI _ ho.used hden (Nat.lt_succ_self _)]
  · rename_i r t
    simp [readHandle, readKids_ok (a := r) hI ho.used hden]
  · rename_i r t
    simp [readHandle, readKids_ok (a := r) hI ho.used hden]

theorem HDen.exists {h : Heap α} {K : Addr → List Addr} (hI : Inv h K) (hkv : ∀ a c, c ∈ K a → h.IsVal c)
    {hd : Handle} (ho : HOK h hd) : ∃ v, HDen h K hd v := by
  obtain ⟨ts, hts⟩ := hI.exists_den h.val (fun a c hc => by
    obtain ⟨d, e⟩ := Heap.isVal_iff.mp (hkv a c hc); simp [e]) ho.used
  cases hd with
  | tree r =>
    obtain ⟨d, e⟩ := Heap.isVal_iff.mp ho.kind
    exact ⟨.tree (.node d ts), by simp [HDen, e]; exact hts⟩
  | forest r => exact ⟨.forest ts, hts⟩
  | iter r => exact ⟨.iter ts, hts⟩

theorem MInv.abs_store {m : Machine α} {K : Addr → List Addr} (M : MInv m K) : Abs m K m.store := by
  refine ⟨?_, rfl, rfl⟩
  intro x
  cases hx : m.env x with
  | none => simp [Machine.store, Machine.view, hx]
  | some hd =>
    obtain ⟨v, hv⟩ := HDen.exists M.inv M.kv (M.hnd x hd hx)
    refine ⟨v, ?_, hv⟩
    simp [Machine.store, Machine.view, hx, hv.read M.inv (M.hnd x hd hx)]

theorem Abs.store_eq {m : Machine α} {K : Addr → List Addr} {S : Store α} (M : MInv m K) (A : Abs m K S) :
    m.store = S := by
  cases S with
  | mk vars fresh dropped =>
  have h1 := A.fresh
  have h2 := A.log
  simp at h1 h2
  subst h1 h2
  simp only [Machine.store, Store.mk.injEq, and_true]
  funext x
  have := A.vars x
  cases hx : m.env x with
  | none => rw [hx] at this; simp at this; simp [Machine.view, hx, this]
  | some hd =>
    rw [hx] at this
    obtain ⟨v, e, hv⟩ := this
    simp at e
    simp [Machine.view, hx, hv.read M.inv (M.hnd x hd hx), e]

/-- One step of the machine is matched by the specification. -/
def Sim : Outcome (Machine α) α → Outcome (Store α) α → Prop
  | .ok m o, .ok S o' => o = o' ∧ ∃ K, MInv m K ∧ Abs m K S
  | .panic m, .panic S => ∃ K, MInv m K ∧ Abs m K S
  | .rejected, .rejected => True
  | _, _ => False

/-! ### Environment access -/

section
variable {m : Machine α} {K : Addr → List Addr} {S : Store α}

theorem HDen.kids {h : Heap α} {hd : Handle} {v : Val α} (hden : HDen h K hd v) :
    DenL h.val K (K hd.addr) v.kids := by
  cases hd <;> cases v <;> simp only [HDen] at hden
  · rename_i t; cases t; simp only [Den_node] at hden; exact hden.2
  · exact hden
  · exact hden

theorem HDen.isIter {h : Heap α} {hd : Handle} {v : Val α} (hden : HDen h K hd v) : hd.isIter = v.isIter := by
  cases hd <;> cases v <;> simp only [HDen] at hden <;> rfl

/-- What is known about variable `x` when a node at `p` is accessed. -/
structure At (m : Machine α) (K : Addr → List Addr) (S : Store α) (x : Var) (p : Path) (hd : Handle) (n : Addr)
    (v : Val α) (us : List (RTree α)) : Prop where
  env : m.env x = some hd
  var : S.vars x = some v
  den : HDen m.heap K hd v
  res : resolve K hd.addr p = some n
  kids : kidsAt v.kids p = some us
  kden : DenL m.heap.val K (K n) us

theorem sim_onKids' (M : MInv m K) (A : Abs m K S) {x : Var} {p : Path}
    {k : Handle → Addr → Outcome (Machine α) α} {k' : Val α → List (RTree α) → Outcome (Store α) α}
    (H : ∀ hd n v us, hd.isIter = false → At m K S x p hd n v us → Sim (k hd n) (k' v us)) :
    Sim (m.onKids x p k) (S.onKids x p k') := by
  have hA := A.vars x
  cases hx : m.env x with
  | none => rw [hx] at hA; simp at hA; simp [Machine.onKids, Store.onKids, hx, hA, Sim]
  | some hd =>
    rw [hx] at hA
    obtain ⟨v, e, hv⟩ := hA
    have ho := M.hnd x hd hx
    simp only [Machine.onKids, Store.onKids, hx, e]
    rw [← hv.isIter]
    cases hit : hd.isIter with
    | true => simp [Sim]
    | false =>
      simp only [Bool.false_eq_true, if_false, Machine.run, locate_ok M.inv ho.used]
      have hr := resolve_kidsAt (p := p) hv.kids
      cases hn : resolve K hd.addr p with
      | none =>
        rw [hn] at hr
        simp only at hr
        simp only [hr]
        exact ⟨rfl, K, M, A⟩
      | some n =>
        rw [hn] at hr
        obtain ⟨us, h1, h2⟩ := hr
        simp only [h1]
        exact H hd n v us hit ⟨hx, e, hv, hn, h1, h2⟩

theorem sim_onKids (M : MInv m K) (A : Abs m K S) {x : Var} {p : Path}
    {k : Handle → Addr → Outcome (Machine α) α} {k' : Val α → List (RTree α) → Outcome (Store α) α}
    (H : ∀ hd n v us, At m K S x p hd n v us → Sim (k hd n) (k' v us)) :
    Sim (m.onKids x p k) (S.onKids x p k') := sim_onKids' M A (fun hd n v us _ => H hd n v us)

theorem kidsAt_append {p q : Path} : ∀ {ts : List (RTree α)}, kidsAt ts (p ++ q) = (kidsAt ts p).bind (fun us => kidsAt us q) := by
  induction p with
  | nil => intro ts; simp [kidsAt]
  | cons i p ih =>
    intro ts
    simp only [List.cons_append, kidsAt]
    cases ts[i]? with
    | none => simp
    | some t => simp [ih]

/-- A proper child node. -/
structure AtC (m : Machine α) (K : Addr → List Addr) (S : Store α) (x : Var) (q : Path) (i : Nat) (hd : Handle)
    (u n : Addr) (v : Val α) (us : List (RTree α)) (t : RTree α) : Prop where
  par : At m K S x q hd u v us
  get : (K u)[i]? = some n
  getT : us[i]? = some t
  den : Den m.heap.val K n t

theorem sim_onNode (M : MInv m K) (A : Abs m K S) {x : Var} {l : Loc}
    {k : Addr → Outcome (Machine α) α} {r' : Val α → RTree α → Outcome (Store α) α}
    {k' : Val α → Path → Nat → List (RTree α) → RTree α → Outcome (Store α) α}
    (H1 : ∀ r t, m.env x = some (.tree r) → S.vars x = some (.tree t) → Den m.heap.val K r t → HOK m.heap (.tree r) →
      Sim (k r) (r' (.tree t) t))
    (H2 : ∀ q i hd u n v us t, AtC m K S x q i hd u n v us t → Sim (k n) (k' v q i us t)) :
    Sim (m.onNode x l k) (S.onNode x l r' k') := by
  have hA := A.vars x
  cases hx : m.env x with
  | none => rw [hx] at hA; simp at hA; simp [Machine.onNode, Store.onNode, hx, hA, Sim]
  | some hd =>
    rw [hx] at hA
    obtain ⟨v, e, hv⟩ := hA
    have ho := M.hnd x hd hx
    simp only [Machine.onNode, Store.onNode, hx, e]
    rw [← hv.isIter]
    cases hit : hd.isIter with
    | true => simp [Sim]
    | false =>
      simp only [Bool.false_eq_true, if_false]
      cases l with
      | root =>
        cases hd with
        | tree r => cases v with
          | tree t => exact H1 r t hx e hv ho
          | forest _ => exact hv.elim
          | iter _ => exact hv.elim
        | forest r => cases v with
          | tree t => exact hv.elim
          | forest _ => trivial
          | iter _ => exact hv.elim
        | iter r => simp [Handle.isIter] at hit
      | child q i =>
        simp only [Machine.run, locate_ok M.inv ho.used]
        rw [resolve_append]
        have hr := resolve_kidsAt (p := q) hv.kids
        cases hn : resolve K hd.addr q with
        | none =>
          rw [hn] at hr
          simp only at hr
          simp only [hr, Option.bind_none]
          exact ⟨rfl, K, M, A⟩
        | some u =>
          rw [hn] at hr
          obtain ⟨us, h1, h2⟩ := hr
          simp only [h1, Option.bind_some, resolve]
          rcases h2.get i with ⟨g1, g2⟩ | ⟨c, t, g1, g2, g3⟩
          · simp only [g1, g2]; exact ⟨rfl, K, M, A⟩
          · simp only [g1, g2]
            exact H2 q i hd u c v us t ⟨⟨hx, e, hv, hn, h1, h2⟩, g1, g2, g3⟩

theorem sim_takeTree (M : MInv m K) (A : Abs m K S) {x y : Var}
    {k : Addr → Outcome (Machine α) α} {k' : RTree α → Outcome (Store α) α}
    (H : ∀ r t, x ≠ y → m.env y = some (.tree r) → S.vars y = some (.tree t) → Den m.heap.val K r t →
      HOK m.heap (.tree r) → Sim (k r) (k' t)) :
    Sim (m.takeTree x y k) (S.takeTree x y k') := by
  unfold Machine.takeTree Store.takeTree
  by_cases hxy : x = y
  · simp [hxy, Sim]
  · simp only [hxy, if_false]
    have hA := A.vars y
    cases hy : m.env y with
    | none => rw [hy] at hA; simp at hA; simp [hA, Sim]
    | some hd =>
      rw [hy] at hA
      obtain ⟨v, e, hv⟩ := hA
      rw [e]
      cases hd <;> cases v <;> simp only [HDen] at hv
      · exact H _ _ hxy hy e hv (M.hnd y _ hy)
      · trivial
      · trivial

theorem sim_takeForest (M : MInv m K) (A : Abs m K S) {x y : Var}
    {k : Addr → Outcome (Machine α) α} {k' : List (RTree α) → Outcome (Store α) α}
    (H : ∀ r ts, x ≠ y → m.env y = some (.forest r) → S.vars y = some (.forest ts) → DenL m.heap.val K (K r) ts →
      HOK m.heap (.forest r) → Sim (k r) (k' ts)) :
    Sim (m.takeForest x y k) (S.takeForest x y k') := by
  unfold Machine.takeForest Store.takeForest
  by_cases hxy : x = y
  · simp [hxy, Sim]
  · simp only [hxy, if_false]
    have hA := A.vars y
    cases hy : m.env y with
    | none => rw [hy] at hA; simp at hA; simp [hA, Sim]
    | some hd =>
      rw [hy] at hA
      obtain ⟨v, e, hv⟩ := hA
      rw [e]
      cases hd <;> cases v <;> simp only [HDen] at hv
      · trivial
      · exact H _ _ hxy hy e hv (M.hnd y _ hy)
      · trivial

/-! ### Frames -/

/-- Nodes outside `T` are unchanged. -/
def Frame (h : Heap α) (K : Addr → List Addr) (h' : Heap α) (K' : Addr → List Addr) (T : Addr → Prop) : Prop :=
  ∀ b, h.Used b → ¬ T b → h'.Used b ∧ K' b = K b ∧ h'.val b = h.val b

theorem Inv.up_none_iff {h : Heap α} (hI : Inv h K) {a : Addr} (ha : h.Used a) :
    h.up a = none ↔ ∀ b, a ∉ K b := by
  constructor
  · intro hu b; exact hI.not_mem_of_root hu
  · intro hn
    cases hu : h.up a with
    | none => rfl
    | some b => exact absurd (hI.mem_iff.mpr ⟨ha, hu⟩) (hn b)

theorem hok_frame {h h' : Heap α} {K' : Addr → List Addr} {T : Addr → Prop} {hd : Handle} (F : Frame h K h' K' T)
    (ho : HOK h hd) (hT : ¬ T hd.addr) (hup : h'.up hd.addr = none) : HOK h' hd := by
  obtain ⟨g1, g2, g3⟩ := F _ ho.used hT
  refine ⟨g1, hup, ?_⟩
  have := ho.kind
  cases hd with
  | tree r =>
    simp only [HKind, Heap.isVal_iff] at this ⊢
    simp only [Handle.addr] at g3
    rw [g3]; exact this
  | forest r => exact g3.trans this
  | iter r => exact g3.trans this

theorem hden_frame {h h' : Heap α} {K' : Addr → List Addr} {T : Addr → Prop} {hd : Handle} {v : Val α}
    (F : Frame h K h' K' T) (hI : Inv h K) (ho : HOK h hd) (hden : HDen h K hd v)
    (hT : ∀ b, Reach K hd.addr b → ¬ T b) : HDen h' K' hd v := by
  have hc : ∀ b, Reach K hd.addr b → K' b = K b ∧ h'.val b = h.val b := fun b hb => by
    have := F b (hI.reach_used ho.used hb) (hT b hb)
    exact this.2
  cases hd <;> cases v <;> simp only [HDen] at hden ⊢
  · exact hden.congr hc
  · rename_i r ts
    have := (hc r (.refl _)).1
    rw [this]
    exact hden.congr (fun c hcm b hb => hc b (.step hcm hb))
  · rename_i r ts
    have := (hc r (.refl _)).1
    rw [this]
    exact hden.congr (fun c hcm b hb => hc b (.step hcm hb))

theorem modKids_congr {β : Type} {f g : List (RTree β) → List (RTree β)} {p : Path} : ∀ {ts us}, kidsAt ts p = some us →
    f us = g us → modKids ts p f = modKids ts p g := by
  induction p with
  | nil => intro ts us h e; simp [kidsAt] at h; subst h; simpa [modKids] using e
  | cons i p ih =>
    intro ts us h e
    simp only [kidsAt] at h
    simp only [modKids]
    cases ht : ts[i]? with
    | none => rfl
    | some t => simp only [ht] at h; simp only [ih h e]

/-- Changing the child list at a path changes the value as specified. -/
theorem hden_modify {h h' : Heap α} {K' : Addr → List Addr} {hd : Handle} {v : Val α} {p : Path} {u : Addr}
    {us : List (RTree α)} {f : List (RTree α) → List (RTree α)} (hI : Inv h K) (hden : HDen h K hd v)
    (hres : resolve K hd.addr p = some u) (hk : kidsAt v.kids p = some us)
    (hK : ∀ b, Reach K hd.addr b → ¬ Reach K u b → K' b = K b)
    (hv : ∀ b, Reach K hd.addr b → (b = u ∨ ¬ Reach K u b) → h'.val b = h.val b)
    (hu : DenL h'.val K' (K' u) (f us)) : HDen h' K' hd (v.setKids (modKids v.kids p f)) := by
  have key := DenL.modify hI hden.kids hres hk hK hv hu
  cases hd <;> cases v <;> simp only [HDen] at hden
  · rename_i r t
    cases t with
    | node d ks =>
      simp only [Den_node] at hden
      simp only [HDen, Val.setKids, RTree.data_node, Den_node]
      refine ⟨?_, key⟩
      rw [hv r (.refl _) ?_]
      · exact hden.1
      · have hr := resolve_reach hres
        rcases hI.reach_desc hr with e | h1
        · exact .inl e
        · right; intro h2
          rcases hI.reach_desc h2 with e | h2
          · simp only [Handle.addr] at h1; rw [e] at h1; omega
          · simp only [Handle.addr] at h1; omega
  · exact key
  · exact key

end

end Trees
