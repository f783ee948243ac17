import Verif.Proof.AllocRc
import Verif.Proof.RcMono
import Verif.Props.Shared
/-
Independence of the allocator for whole calls of the API with shared nodes.
-/
namespace Trees
set_option linter.unusedSimpArgs false
set_option linter.unusedVariables false
variable {α β γ δ : Type} {A : Alloc}

/-- Rename a shared value. -/
def Ref.ren (A : Alloc) : Ref → Ref
  | .rc r => .rc (r.ren A)
  | .weak r => .weak (r.ren A)
  | .guard k a w => .guard k (A.addr a) w
  | .iter it => .iter (it.ren A)

def renRefs (A : Alloc) (e : Var → Option Ref) : Var → Option Ref := fun x => (e x).map (Ref.ren A)

theorem renRefs_upd (e : Var → Option Ref) (x : Var) (v : Option Ref) :
    upd (renRefs A e) x (v.map (Ref.ren A)) = renRefs A (upd e x v) := by
  funext z; simp only [upd_apply, renRefs]; split <;> rfl

/-- Related machines. -/
structure RMRel (A : Alloc) (m m' : RMachine α) : Prop where
  heap : ARel A m.heap m'.heap
  env : m.env = renEnv A m'.env
  refs : m.refs = renRefs A m'.refs
  fresh : m.fresh = m'.fresh

/-- Nothing else is where a weak handle points to. -/
def WeakPin (A : Alloc) (m' : RMachine α) : Prop :=
  ∀ w a, m'.refs w = some (.weak (.scattered a)) → ∀ b, m'.heap.live b = true → A.addr b = A.addr a → b = a

/-- Related outcomes. -/
def RORel (A : Alloc) : Option (Outcome (RMachine α) α) → Outcome (RMachine α) α → Prop
  | _, .bad => True
  | none, _ => ¬ A.Bump
  | some (.ok m o), .ok m' o' => RMRel A m m' ∧ o = o'
  | some (.panic m), .panic m' => RMRel A m m'
  | some .rejected, .rejected => True
  | _, _ => False

theorem RORel.bad (r : Option (Outcome (RMachine α) α)) : RORel A r .bad := by
  cases r with
  | none => trivial
  | some r => cases r <;> trivial

section
variable {m m' : RMachine α} (r : RMRel A m m')
include r

theorem RMRel.at (x : Var) : m.env x = (m'.env x).map (Handle.ren A) := by rw [r.env]; rfl
theorem RMRel.ref (x : Var) : m.refs x = (m'.refs x).map (Ref.ren A) := by rw [r.refs]; rfl
theorem RMRel.clearEnv (x : Var) : upd m.env x none = renEnv A (upd m'.env x none) := by
  rw [r.env]; exact renEnv_upd m'.env x none
theorem RMRel.clearRef (x : Var) : upd m.refs x none = renRefs A (upd m'.refs x none) := by
  rw [r.refs]; exact renRefs_upd m'.refs x none
theorem RMRel.guarded (k : Var) : m.guarded k = m'.guarded k := by
  simp only [RMachine.guarded, r.fresh]
  congr 1
  funext g
  rw [r.ref g]
  cases m'.refs g with
  | none => rfl
  | some q => cases q <;> rfl

theorem RORel.runRes {f : δ → γ} {e e' : Var → Option Handle} (he : e = renEnv A e') {d d' : Var → Option Ref} (hd : d = renRefs A d')
    {c : M α γ} {c' : M α δ} (hc : ARes A False f (c m.heap) (c' m'.heap))
    {k : γ → Heap α → Outcome (RMachine α) α} {k' : δ → Heap α → Outcome (RMachine α) α}
    (hk : ∀ b L H, ARel A L H → RORel A (some (k (f b) L)) (k' b H)) : RORel A (some (m.run e d c k)) (m'.run e' d' c' k') := by
  simp only [RMachine.run]
  revert hc
  generalize c m.heap = q
  generalize c' m'.heap = q'
  intro h
  match q, q', h with
  | .err .alloc _, .ok _ _, h => exact h.elim
  | .err .alloc _, .err .panic _, h => exact h.elim
  | _, .err .ub _, _ => exact RORel.bad _
  | _, .err .fuel _, _ => exact RORel.bad _
  | _, .err .alloc _, _ => exact RORel.bad _
  | .ok b L, .ok b' H, h => obtain ⟨rfl, h⟩ := h; exact hk b' L H h
  | .err .panic L, .err .panic H, h => exact ⟨h, he, hd, r.fresh⟩

theorem RORel.run {f : δ → γ} {e e' : Var → Option Handle} (he : e = renEnv A e') {d d' : Var → Option Ref} (hd : d = renRefs A d')
    {c : M α γ} {c' : M α δ} (hc : ASim A False f c c')
    {k : γ → Heap α → Outcome (RMachine α) α} {k' : δ → Heap α → Outcome (RMachine α) α}
    (hk : ∀ b L H, ARel A L H → RORel A (some (k (f b) L)) (k' b H)) : RORel A (some (m.run e d c k)) (m'.run e' d' c' k') :=
  .runRes r he hd (hc _ _ r.heap) hk

theorem RORel.onRc {k : Var} {f f' : RcRef → Outcome (RMachine α) α}
    (h : ∀ q, RORel A (some (f (q.ren A))) (f' q)) : RORel A (some (m.onRc k f)) (m'.onRc k f') := by
  simp only [RMachine.onRc]
  rw [r.ref k]
  cases m'.refs k with
  | none => trivial
  | some q => cases q with
    | rc q => exact h q
    | weak q => trivial
    | guard k a w => trivial
    | iter it => trivial

theorem RORel.takeTree {y : Var} {f f' : Addr → Outcome (RMachine α) α}
    (h : ∀ t, RORel A (some (f (A.addr t))) (f' t)) : RORel A (some (m.takeTree y f)) (m'.takeTree y f') := by
  simp only [RMachine.takeTree]
  rw [r.at y]
  cases m'.env y with
  | none => trivial
  | some q => cases q with
    | tree t => exact h t
    | forest t => trivial
    | iter t => trivial

theorem RORel.takeForest {y : Var} {f f' : Addr → Outcome (RMachine α) α}
    (h : ∀ t, RORel A (some (f (A.addr t))) (f' t)) : RORel A (some (m.takeForest y f)) (m'.takeForest y f') := by
  simp only [RMachine.takeForest]
  rw [r.at y]
  cases m'.env y with
  | none => trivial
  | some q => cases q with
    | tree t => trivial
    | forest t => exact h t
    | iter t => trivial

theorem RORel.call {k : Var} {c : RcRef → M α β} {o : β → Out α} (h : ∀ q, ASim A False id (c (q.ren A)) (c q)) :
    RORel A (some (m.call k c o)) (m'.call k c o) :=
  .onRc r fun q => .run r r.env r.refs (h q) fun b L H h => ⟨⟨h, r.env, r.refs, r.fresh⟩, rfl⟩

theorem RORel.consume {k y : Var} {c c' : RcRef → M α Unit} (h : ∀ q, ASim A False id (c (q.ren A)) (c' q)) :
    RORel A (some (m.consume k y c)) (m'.consume k y c') :=
  .onRc r fun q => .run r (r.clearEnv y) r.refs (h q) fun b L H h => ⟨⟨h, r.clearEnv y, r.refs, r.fresh⟩, rfl⟩

theorem RORel.bind {d d' : Var → Option Ref} (hd : d = renRefs A d') {L H : Heap α} (h : ARel A L H) (q : Ref) :
    RORel A (some (m.bindRef L d (q.ren A))) (m'.bindRef H d' q) := by
  refine ⟨⟨h, r.env, ?_, ?_⟩, ?_⟩
  · simp only [hd, r.fresh]; exact renRefs_upd d' _ (some q)
  · simp only [r.fresh]
  · simp only [r.fresh]

theorem RORel.ret {d d' : Var → Option Ref} (hd : d = renRefs A d') {L H : Heap α} (h : ARel A L H) (q : Option RcRef) :
    RORel A (some (m.retRc L d (q.map (RcRef.ren A)))) (m'.retRc H d' q) := by
  cases q with
  | none => exact ⟨⟨h, r.env, hd, r.fresh⟩, rfl⟩
  | some q => exact .bind r hd h (.rc q)

theorem RORel.unit {e e' : Var → Option Handle} (he : e = renEnv A e') {d d' : Var → Option Ref} (hd : d = renRefs A d')
    {L H : Heap α} (h : ARel A L H) (o : Out α) : RORel A (some (.ok ⟨L, e, d, m.fresh⟩ o)) (.ok ⟨H, e', d', m'.fresh⟩ o) :=
  ⟨⟨h, he, hd, r.fresh⟩, rfl⟩

theorem RMRel.excl : AMRel A m.excl m'.excl := ⟨r.heap, r.env, r.fresh⟩

theorem rstepRaw_sim (hw : WeakPin A m') (op : ROp α) : RORel A (rstepRaw A m op) (rstep m' op) := by
  have E := r.env
  have R := r.refs
  cases op with
  | excl op =>
    have h := stepA_sim r.excl op
    simp only [rstepRaw, rstep]
    revert h
    cases step m'.excl op with
    | bad => exact fun _ => RORel.bad _
    | rejected =>
      cases stepA A m.excl op with
      | none => exact fun h => h
      | some q => cases q <;> first | exact fun h => h | exact fun h => h.elim
    | ok m1 o =>
      cases stepA A m.excl op with
      | none => exact fun h => h
      | some q => cases q with
        | ok m2 o2 => rintro ⟨h, rfl⟩; exact ⟨⟨h.heap, h.env, R, h.fresh⟩, rfl⟩
        | panic _ => exact fun h => h.elim
        | rejected => exact fun h => h.elim
        | bad => exact fun h => h.elim
    | panic m1 =>
      cases stepA A m.excl op with
      | none => exact fun h => h
      | some q => cases q with
        | panic m2 => intro h; exact ⟨h.heap, h.env, R, h.fresh⟩
        | ok _ _ => exact fun h => h.elim
        | rejected => exact fun h => h.elim
        | bad => exact fun h => h.elim
  | fromTree x =>
    refine .takeTree r fun t => .run r (r.clearEnv x) R (al_intoRc t) fun q L H h => ?_
    refine ⟨⟨h, r.clearEnv x, ?_, by simp only [r.fresh]⟩, by simp only [r.fresh]⟩
    simp only [R, r.fresh]; exact renRefs_upd m'.refs _ (some (.rc q))
  | clone k => exact .onRc r fun q => .run r E R (al_rcClone q) fun q L H h => .bind r R h (.rc q)
  | drop k =>
    simp only [rstepRaw, rstep]
    rw [r.ref k]
    cases m'.refs k with
    | none => trivial
    | some q => cases q with
      | rc q =>
        simp only [Option.map_some, Ref.ren]
        rw [r.guarded k]
        split
        · trivial
        · exact .run r E (r.clearRef k) (al_dropHandle q) fun _ L H h => .unit r E (r.clearRef k) h _
      | weak q => exact .run r E (r.clearRef k) (al_dropWeak q) fun _ L H h => .unit r E (r.clearRef k) h _
      | guard k' a w =>
        refine .run r E (r.clearRef k) (f := id) ?_ fun _ L H h => .unit r E (r.clearRef k) h _
        cases w
        · exact al_releaseShared a
        · exact al_releaseMut a
      | iter it => exact .unit r E (r.clearRef k) r.heap _
  | isRoot k => exact .call r al_isRootRc
  | data k => exact .call r fun q => .withShared al_dataRef
  | degree k => exact .call r fun q => .withShared al_degree
  | nodeCount k => exact .call r fun q => .withShared al_nodeCount
  | hasNoChild k => exact .call r fun q => .withShared al_hasNoChild
  | front k => exact .onRc r fun q => .run r E R (al_frontRc q) fun o L H h => .ret r R h o
  | back k => exact .onRc r fun q => .run r E R (al_backRc q) fun o L H h => .ret r R h o
  | parent k => exact .onRc r fun q => .run r E R (al_parentRc q) fun o L H h => .ret r R h o
  | pushFront k y => exact .takeTree r fun t => .consume r fun q => .withMutArg fun a => al_pushFront a t
  | pushBack k y => exact .takeTree r fun t => .consume r fun q => .withMutArg fun a => al_pushBack a t
  | popFront k => exact .onRc r fun q => .run r E R (al_popFrontRc q) fun o L H h => .ret r R h o
  | popBack k => exact .onRc r fun q => .run r E R (al_popBackRc q) fun o L H h => .ret r R h o
  | prepend k y => exact .takeForest r fun t => .consume r fun q => .withMutArg fun a => al_prepend a t
  | append k y => exact .takeForest r fun t => .consume r fun q => .withMutArg fun a => al_append a t
  | insertPrevSib k y => exact .takeTree r fun t => .consume r fun q => .withMutArg fun a => al_insertPrevSib a t
  | insertNextSib k y => exact .takeTree r fun t => .consume r fun q => .withMutArg fun a => al_insertNextSib a t
  | detach k => exact .call r al_detachRc
  | setData k d => exact .call r fun q => .withMut fun a => al_dataMutSet a d
  | borrow k => exact .onRc r fun q => .run r E R (al_guardShared q) fun a L H h => .bind r R h (.guard k a false)
  | borrowMut k => exact .onRc r fun q => .run r E R (al_guardMut q) fun a L H h => .bind r R h (.guard k a true)
  | guardRead g =>
    simp only [rstepRaw, rstep]
    rw [r.ref g]
    cases m'.refs g with
    | none => trivial
    | some q => cases q with
      | guard k a w => exact .run r E R (al_dataRef a) fun d L H h => .unit r E R h _
      | rc q => trivial
      | weak q => trivial
      | iter q => trivial
  | guardWrite g d =>
    simp only [rstepRaw, rstep]
    rw [r.ref g]
    cases m'.refs g with
    | none => trivial
    | some q => cases q with
      | guard k a w => cases w with
        | true => exact .run r E R (al_dataMutSet a d) fun d L H h => .unit r E R h _
        | false => trivial
      | rc q => trivial
      | weak q => trivial
      | iter q => trivial
  | iterRc k => exact .onRc r fun q => .run r E R (al_iterRc q) fun it L H h => .bind r R h (.iter it)
  | iterNext i =>
    simp only [rstepRaw, rstep]
    rw [r.ref i]
    cases m'.refs i with
    | none => trivial
    | some q => cases q with
      | iter it =>
        refine .run r E R (al_iterRcNext it) fun q L H h => ?_
        refine .ret r ?_ h q.1
        rw [R]; exact renRefs_upd m'.refs i (some (.iter q.2))
      | rc q => trivial
      | weak q => trivial
      | guard k a w => trivial
  | iterClone i =>
    simp only [rstepRaw, rstep]
    rw [r.ref i]
    cases m'.refs i with
    | none => trivial
    | some q => cases q with
      | iter it => exact .bind r R r.heap (.iter it)
      | rc q => trivial
      | weak q => trivial
      | guard k a w => trivial
  | iterLen i =>
    simp only [rstepRaw, rstep]
    rw [r.ref i]
    cases m'.refs i with
    | none => trivial
    | some q => cases q with
      | iter it => exact ⟨r, rfl⟩
      | rc q => trivial
      | weak q => trivial
      | guard k a w => trivial
  | downgrade k => exact .onRc r fun q => .bind r R r.heap (.weak q)
  | upgrade w =>
    simp only [rstepRaw, rstep]
    rw [r.ref w]
    cases hq : m'.refs w with
    | none => trivial
    | some q => cases q with
      | weak q =>
        refine .runRes r E R (f := Option.map (RcRef.ren A)) (al_upgradeWeak q r.heap ?_) fun o L H h => .ret r R h o
        rintro a rfl
        exact hw w a hq
      | rc q => trivial
      | iter q => trivial
      | guard k a w => trivial
  | deepClone k f =>
    simp only [rstepRaw, rstep, RMachine.onRc]
    rw [r.ref k]
    cases m'.refs k with
    | none => trivial
    | some q => cases q with
      | rc q =>
        have h := ASim.withShared (r := q) (fun a => al_mapBfs f a) m.heap m'.heap r.heap
        simp only [Option.map_some, Ref.ren, RMachine.run]
        revert h
        generalize withShared (q.ren A) (fun a => mapBfsA A f a) m.heap = z
        generalize withShared q (fun a => mapBfs f a) m'.heap = z'
        intro h
        match z, z', h with
        | .err .alloc _, .ok _ _, h => exact h
        | .err .alloc _, .err .panic _, h => exact h
        | _, .err .ub _, _ => exact RORel.bad _
        | _, .err .fuel _, _ => exact RORel.bad _
        | _, .err .alloc _, _ => exact RORel.bad _
        | .ok b L, .ok b' H, h =>
          obtain ⟨rfl, h⟩ := h
          refine ⟨⟨h, ?_, R, by simp only [r.fresh]⟩, by simp only [r.fresh]⟩
          simp only [E, r.fresh]; exact renEnv_upd m'.env _ (some (.tree b'))
        | .err .panic L, .err .panic H, h => exact ⟨h, E, R, r.fresh⟩
      | weak q => trivial
      | iter q => trivial
      | guard k a w => trivial
  | intoTree k =>
    refine .onRc r fun q => ?_
    rw [r.guarded k]
    split
    · trivial
    · refine .run r E (r.clearRef k) (al_intoTree q) fun a L H h => ?_
      refine ⟨⟨h, ?_, r.clearRef k, by simp only [r.fresh]⟩, by simp only [r.fresh]⟩
      simp only [E, r.fresh]; exact renEnv_upd m'.env _ (some (.tree a))
end

/-- Weak handles are created by `downgrade` only. -/
theorem weak_origin {m m1 : RMachine α} {op : ROp α} (h : (∃ o, rstep m op = .ok m1 o) ∨ rstep m op = .panic m1) {w : Var} {q : RcRef}
    (hw : m1.refs w = some (.weak q)) : m.refs w = some (.weak q) ∨ (∃ k, m.refs k = some (.rc q) ∧ m1.heap = m.heap) := by
  have key : ∀ (f : Var → Option Ref) (x : Var) (z : Option Ref), (∀ q, z ≠ some (.weak q)) → upd f x z w = some (.weak q) → f w = some (.weak q) := by
    intro f x z hz hh
    simp only [upd_apply] at hh
    split at hh
    · exact absurd hh (hz q)
    · exact hh
  cases op
  all_goals
    simp only [rstep, RMachine.call, RMachine.consume, RMachine.takeTree, RMachine.takeForest, RMachine.onRc, RMachine.run, RMachine.bindRef, RMachine.retRc] at h
    rcases h with ⟨o, h⟩ | h
    all_goals
      repeat' split at h
      all_goals first
        | (simp only [reduceCtorEq] at h; done)
        | (cases h; exact .inl hw)
        | (cases h; simp only [upd_apply] at hw; split at hw <;> first | exact .inl hw | (cases hw; exact .inr ⟨_, by assumption, rfl⟩))
        | (cases h; exact .inl (key _ _ _ (by simp) hw))
        | (cases h; exact .inl (key _ _ _ (by simp) (key _ _ _ (by simp) hw)))

/-- Related machines, in a history of safe calls. -/
structure RMSim (A : Alloc) (m m' : RMachine α) : Prop where
  rel : RMRel A m m'
  pin : WeakPin A m'
  safe : SReachable m'

theorem rheap_of {m m1 : RMachine α} {op : ROp α} (h : (∃ o, rstep m op = .ok m1 o) ∨ rstep m op = .panic m1) :
    (rstep m op).rheap = some m1.heap := by
  rcases h with ⟨o, h⟩ | h <;> rw [h] <;> rfl

theorem SReachable.weak_lt {m : RMachine α} (hr : SReachable m) {w : Var} {a : Addr} (h : m.refs w = some (.weak (.scattered a))) :
    a < m.heap.nextAddr ∧ w < m.fresh := by
  obtain ⟨G, K, T, I, B⟩ := hr.si
  obtain ⟨b, h1, h2, -⟩ := I.wk w _ h
  cases h1
  refine ⟨by rw [I.heap]; exact h2, ?_⟩
  by_contra hk
  rw [(I.fr w (Nat.le_of_not_lt hk)).2] at h; simp at h

theorem SReachable.rc_live {m : RMachine α} (hr : SReachable m) {k : Var} {a : Addr} (h : m.refs k = some (.rc (.scattered a))) :
    m.heap.live a = true := by
  obtain ⟨G, K, T, I, B⟩ := hr.si
  obtain ⟨b, h1, h2⟩ := I.rcs k _ h
  have := (I.tgt k b h1).2.1
  rw [I.heap]
  obtain ⟨rfl, -⟩ := h2
  exact this.1

/-- A bump allocator respects weak handles. -/
theorem RMSim.clear_bump {m m' : RMachine α} (S : RMSim A m m') (hB : A.Bump) (h : Heap α) : m.clear A h = true := by
  simp only [RMachine.clear, List.all_eq_true, List.mem_range, Bool.not_eq_true']
  intro i hi
  by_contra hp
  simp only [RMachine.pinned, Bool.not_eq_false, List.any_eq_true, List.mem_range] at hp
  obtain ⟨w, hw, hp⟩ := hp
  rw [S.rel.ref w] at hp
  cases hq : m'.refs w with
  | none => simp [hq] at hp
  | some q =>
    rw [hq] at hp
    cases q with
    | weak q => cases q with
      | scattered a =>
        simp only [Option.map_some, Ref.ren, RcRef.ren, beq_iff_eq] at hp
        have h1 := (S.safe.weak_lt hq).1
        have h2 := S.rel.heap.nextAddr
        rw [hB.addr a, hB.addr (m.heap.nextAddr + i)] at hp
        allomega
      | piled v i => simp [Ref.ren, RcRef.ren] at hp
    | rc q => simp [Ref.ren] at hp
    | guard k a w => simp [Ref.ren] at hp
    | iter it => simp [Ref.ren] at hp

/-- Weak handles stay unambiguous. -/
theorem RMSim.pin_step {m m' : RMachine α} (S : RMSim A m m') {op : ROp α} {m1 m1' : RMachine α} (r1 : RMRel A m1 m1')
    (h : (∃ o, rstep m' op = .ok m1' o) ∨ rstep m' op = .panic m1') (hc : m.clear A m1.heap = true) : WeakPin A m1' := by
  intro w a hw b hb e
  rcases weak_origin h hw with g | ⟨k, g, eh⟩
  · have hf := rstep_gone (m := m') op _ (rheap_of h)
    by_cases hlt : b < m'.heap.nextAddr
    · exact S.pin w a g b (hf.live b hlt hb) e
    · exfalso
      have hb2 := r1.heap.lbnd b hb
      have e1 := S.rel.heap.nextAddr
      have e2 := r1.heap.nextAddr
      simp only [RMachine.clear, List.all_eq_true, List.mem_range, Bool.not_eq_true'] at hc
      have := hc (b - m'.heap.nextAddr) (by allomega)
      rw [e1, show m'.heap.nextAddr + (b - m'.heap.nextAddr) = b from by allomega, e] at this
      have hp : m.pinned (A.addr a) = true := by
        simp only [RMachine.pinned, List.any_eq_true, List.mem_range]
        refine ⟨w, by rw [S.rel.fresh]; exact (S.safe.weak_lt g).2, ?_⟩
        rw [S.rel.ref w, g]
        simp [Ref.ren, RcRef.ren]
      rw [hp] at this; simp at this
  · rw [eh] at hb
    exact S.rel.heap.inj b a (.inl hb) (.inl (S.safe.rc_live g)) e

/-- One safe call. -/
def Stepped (A : Alloc) : Option (Outcome (RMachine α) α) → Outcome (RMachine α) α → Prop
  | none, _ => ¬ A.Bump
  | some (.ok m o), .ok m' o' => RMSim A m m' ∧ o = o'
  | some (.panic m), .panic m' => RMSim A m m'
  | some .rejected, .rejected => True
  | _, _ => False

theorem RMSim.step {m m' : RMachine α} (S : RMSim A m m') {op : ROp α} (hs : Safe m' op ∨ rstep m' op = .rejected) : Stepped A (rstepA A m op) (rstep m' op) := by
  have h := rstepRaw_sim S.rel S.pin op
  have hb : rstep m' op ≠ .bad := by
    intro e
    rcases hs with hs | hs
    · have := good_step S.safe.si op hs
      rw [e] at this
      exact this
    · rw [hs] at e; cases e
  simp only [rstepA]
  revert h
  cases e' : rstep m' op with
  | bad => exact absurd e' hb
  | rejected =>
    clear hs
    cases rstepRaw A m op with
    | none => exact fun h => h
    | some q => cases q <;> first | exact fun h => h.elim | exact fun h => trivial
  | ok m1' o' =>
    have hs : Safe m' op := hs.resolve_right (by rw [e']; simp)
    cases rstepRaw A m op with
    | none => exact fun h => h
    | some q => cases q with
      | ok m1 o =>
        rintro ⟨h, rfl⟩
        simp only [Option.bind_some, RMachine.honest]
        by_cases hc : m.clear A m1.heap = true
        · rw [if_pos hc]
          exact ⟨⟨h, S.pin_step h (.inl ⟨_, e'⟩) hc, .ok S.safe hs e'⟩, rfl⟩
        · rw [if_neg hc]
          exact fun hB => hc (S.clear_bump hB _)
      | panic _ => exact fun h => h.elim
      | rejected => exact fun h => h.elim
      | bad => exact fun h => h.elim
  | panic m1' =>
    have hs : Safe m' op := hs.resolve_right (by rw [e']; simp)
    cases rstepRaw A m op with
    | none => exact fun h => h
    | some q => cases q with
      | panic m1 =>
        intro h
        simp only [Option.bind_some, RMachine.honest]
        by_cases hc : m.clear A m1.heap = true
        · rw [if_pos hc]
          exact ⟨h, S.pin_step h (.inr e') hc, .panic S.safe hs e'⟩
        · rw [if_neg hc]
          exact fun hB => hc (S.clear_bump hB _)
      | ok _ _ => exact fun h => h.elim
      | rejected => exact fun h => h.elim
      | bad => exact fun h => h.elim

end Trees
