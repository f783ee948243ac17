import Verif.Proof.AllocStep
import Verif.Model.AllocRc
/-
Independence of the allocator for the code of rc.rs and iter_rc.rs.
-/
namespace Trees
set_option linter.unusedSimpArgs false
set_option linter.unusedVariables false
variable {α β γ δ : Type} {A : Alloc} {P : Prop}

/-- Rename a handle. -/
def RcRef.ren (A : Alloc) : RcRef → RcRef
  | .scattered a => .scattered (A.addr a)
  | .piled v i => .piled (A.vec v) i

/-- The slot of a handle is memory of a node. -/
theorem slot_here {r : RcRef} {H H' : Heap α} {a : Addr} (h : r.slot H = .ok a H') : H' = H ∧ H.Here a := by
  cases r with
  | scattered b =>
    simp only [RcRef.slot] at h
    split at h
    · cases h; exact ⟨rfl, .inl (by assumption)⟩
    · simp at h
  | piled v i =>
    simp only [RcRef.slot, vecNode] at h
    split at h
    · simp at h
    · rename_i nv hv
      split at h
      · cases h; exact ⟨rfl, .inr ⟨v, nv, hv, Nat.le_add_right _ _, Nat.add_lt_add_left (by assumption) _⟩⟩
      · simp at h

theorem al_slot (r : RcRef) : ASim A P A.addr ((r.ren A).slot : M α _) r.slot := by
  cases r with
  | scattered a =>
    intro L H R
    simp only [RcRef.slot, RcRef.ren]
    by_cases hl : H.live a = true
    · rw [if_pos hl, if_pos (R.live a hl)]; exact ⟨rfl, R⟩
    · rw [if_neg hl]; exact ARes.ub _ _
  | piled v i => exact al_vecNode v i

/-- Go on with the slot of a handle. -/
theorem ASim.bindSlot {r : RcRef} {g : δ → γ} {k : Addr → M α γ} {k' : Addr → M α δ}
    (hk : ∀ a L H, ARel A L H → H.Here a → ARes A P g (k (A.addr a) L) (k' a H)) :
    ASim A P g ((r.ren A).slot >>= k) (r.slot >>= k') := by
  intro L H R
  have h := al_slot (P := P) r L H R
  simp only [M.bind_apply]
  cases e' : r.slot H with
  | ok a H1 =>
    obtain ⟨rfl, hh⟩ := slot_here e'
    rw [e'] at h
    cases e : (r.ren A).slot L with
    | ok b L1 =>
      rw [e] at h
      obtain ⟨rfl, h⟩ := h
      exact hk a L1 _ h hh
    | err x L1 =>
      rw [e] at h
      cases x with
      | alloc =>
        cases r <;> simp only [RcRef.slot, RcRef.ren, vecNode] at e <;> (repeat' split at e) <;> simp at e
      | panic => exact h.elim
      | ub => exact h.elim
      | fuel => exact h.elim
  | err x H1 =>
    cases r <;> simp only [RcRef.slot, vecNode] at e' <;> (repeat' split at e') <;> cases e' <;> exact ARes.ub _ _

theorem ARes.bindCount {g : δ → γ} {a : Addr} {k : Nat → M α γ} {k' : Nat → M α δ} (hk : ∀ n, ASim A P g (k n) (k' n))
    {L H : Heap α} (r : ARel A L H) (h : H.Here a) : ARes A P g ((getCount (A.addr a) >>= k) L) ((getCount a >>= k') H) := by
  simp only [M.bind_apply, getCount, Res.bind, r.count a h]
  exact hk _ L H r

theorem ARel.setCount {L H : Heap α} (r : ARel A L H) {a : Addr} (h : H.Here a) (n : Nat) :
    ARel A { L with count := upd L.count (A.addr a) n } { H with count := upd H.count a n } :=
  { r with count := r.write h (g := id) r.count n }

theorem ARes.bindIncr {g : δ → γ} {a : Addr} {k : Unit → M α γ} {k' : Unit → M α δ} (hk : ∀ n, ASim A P g (k n) (k' n))
    {L H : Heap α} (r : ARel A L H) (h : H.Here a) : ARes A P g ((incrCount (A.addr a) >>= k) L) ((incrCount a >>= k') H) := by
  simp only [M.bind_apply, incrCount, r.count a h]
  split
  · exact r
  · exact hk _ _ _ (r.setCount h _)

theorem ARes.bindDecr {g : δ → γ} {a : Addr} {k : Nat → M α γ} {k' : Nat → M α δ} (hk : ∀ n, ASim A P g (k n) (k' n))
    {L H : Heap α} (r : ARel A L H) (h : H.Here a) : ARes A P g ((decrCount (A.addr a) >>= k) L) ((decrCount a >>= k') H) := by
  simp only [M.bind_apply, decrCount, r.count a h]
  split
  · exact r
  · exact hk _ _ _ (r.setCount h _)

theorem al_incrVec (v : Nat) : ASim A P id (incrVec (A.vec v) : M α _) (incrVec v) := by
  intro L H r
  simp only [incrVec]
  cases hv : H.vec v with
  | none => exact ARes.ub _ _
  | some nv =>
    rw [r.vec v nv hv]
    dsimp only
    have hne : ∀ w nw, H.vec w = some nw → w ≠ v → A.vec w ≠ A.vec v := fun w nw hw e e' => e (r.vinj w v nw nv hw hv e')
    split
    · exact r
    · refine ⟨rfl, ?_⟩
      have hvs : ∀ w nw, upd H.vec v (some { nv with refCnt := nv.refCnt + 1 }) w = some nw →
          ∃ nw', H.vec w = some nw' ∧ nw'.base = nw.base ∧ nw'.cap = nw.cap := by
        intro w nw hw
        simp only [upd_apply] at hw
        split at hw
        · rename_i e; subst e; cases hw; exact ⟨nv, hv, rfl, rfl⟩
        · exact ⟨nw, hw, rfl, rfl⟩
      have hh : ∀ {H' : Heap α} b, H'.Here b → H'.live = H.live → H'.vec = upd H.vec v (some { nv with refCnt := nv.refCnt + 1 }) → H.Here b := by
        intro H' b hb e1 e2
        exact hb.of (fun c hc => by rw [← e1]; exact hc) (fun w nw hw => hvs w nw (by rw [← e2]; exact hw))
      constructor
      case live => exact r.live
      case onto => exact r.onto
      case inj => exact fun a b ha hb => r.inj a b (hh a ha rfl rfl) (hh b hb rfl rfl)
      case prev => exact fun a ha => r.prev a (hh a ha rfl rfl)
      case next => exact fun a ha => r.next a (hh a ha rfl rfl)
      case head => exact fun a ha => r.head a (hh a ha rfl rfl)
      case tail => exact fun a ha => r.tail a (hh a ha rfl rfl)
      case up => exact fun a ha => r.up a (hh a ha rfl rfl)
      case size => exact fun a ha => r.size a (hh a ha rfl rfl)
      case data => exact fun a ha => r.data a (hh a ha rfl rfl)
      case count => exact fun a ha => r.count a (hh a ha rfl rfl)
      case borrow => exact fun a ha => r.borrow a (hh a ha rfl rfl)
      case vec =>
        intro w nw hw
        show upd L.vec _ _ _ = _
        by_cases e : w = v
        · subst e; simp only [upd_self] at hw ⊢; cases hw; rfl
        · have hw' : H.vec w = some nw := by
            have hw2 : upd H.vec v (some { nv with refCnt := nv.refCnt + 1 }) w = some nw := hw
            rwa [upd_of_ne _ _ e] at hw2
          rw [upd_of_ne _ _ (hne w nw hw' e)]; exact r.vec w nw hw'
      case vonto =>
        intro w nw hw
        simp only [upd_apply] at hw
        split at hw
        · rename_i e; exact ⟨v, _, upd_self _ _ _, e.symm⟩
        · rename_i hne'
          obtain ⟨u, nu, h1, h2⟩ := r.vonto w nw hw
          refine ⟨u, nu, ?_, h2⟩
          show upd H.vec v _ u = some nu
          rw [upd_of_ne _ _ (fun e => hne' (by rw [← h2, e]))]
          exact h1
      case vinj =>
        intro u w nu nw hu hw e
        obtain ⟨nu', h1, -⟩ := hvs u nu hu
        obtain ⟨nw', h2, -⟩ := hvs w nw hw
        exact r.vinj u w nu' nw' h1 h2 e
      case slots =>
        intro w nw hw i hi
        obtain ⟨nw', h2, e1, e2⟩ := hvs w nw hw
        rw [← e1]; exact r.slots w nw' h2 i (by rw [e2]; exact hi)
      case sep =>
        intro w nw hw a ha g1 g2
        obtain ⟨nw', h2, e1, e2⟩ := hvs w nw hw
        rw [← e1, ← e2]
        exact r.sep w nw' h2 a (hh a ha rfl rfl) (by rw [e1]; exact g1) (by rw [e1, e2]; exact g2)
      case known =>
        intro w nw hw
        obtain ⟨nw', h2, -⟩ := hvs w nw hw
        exact r.known w nw' h2
      case lbnd => exact r.lbnd
      case vbnd =>
        intro w nw hw
        obtain ⟨nw', h2, e1, e2⟩ := hvs w nw hw
        rw [← e1, ← e2]; exact r.vbnd w nw' h2
      all_goals first | exact r.nextAddr | exact r.nextVec | exact r.log

theorem al_vecIndex (v : Nat) (a : Addr) : ASim A P id (vecIndex (A.vec v) (A.addr a) : M α _) (vecIndex v a) := by
  intro L H r
  simp only [vecIndex]
  cases hv : H.vec v with
  | none => exact ARes.ub _ _
  | some nv =>
    rw [r.vec v nv hv]
    dsimp only
    by_cases h : nv.base ≤ a ∧ a < nv.base + nv.cap
    · have := r.slots v nv hv (a - nv.base) (by allomega)
      rw [show nv.base + (a - nv.base) = a from by allomega] at this
      rw [if_pos h, if_pos ⟨by allomega, by allomega⟩]
      exact ⟨by show _ = a - nv.base; allomega, r⟩
    · rw [if_neg h]; exact ARes.ub _ _

theorem al_nodeRc (a : Addr) : ASim A P (RcRef.ren A) (nodeRc (A.addr a) : M α _) (nodeRc a) := by
  unfold nodeRc
  refine (al_getData a).bind fun d => ?_
  cases d with
  | none => exact .throw _
  | scatteredNone o => exact .throw _
  | piledNone o => exact .throw _
  | scattered x o =>
    exact ASim.bindSlot (r := .scattered o) fun b L H r h => ARes.bindIncr (g := RcRef.ren A) (fun _ => ASim.pure (b' := RcRef.scattered b) rfl) r h
  | piled x v =>
    refine (al_vecIndex v a).bindId fun i => (al_incrVec v).bindId fun _ => ?_
    exact ASim.bindSlot (r := .piled v i) fun b L H r h => ARes.bindIncr (g := RcRef.ren A) (fun _ => ASim.pure (b' := RcRef.piled v i) rfl) r h

theorem al_intoRc (a : Addr) : ASim A P (RcRef.ren A) (intoRc (A.addr a) : M α _) (intoRc a) := by
  unfold intoRc
  refine (al_getData a).bind fun d => ?_
  cases d with
  | none => exact .throw _
  | scatteredNone o => exact .throw _
  | piledNone o => exact .throw _
  | scattered x o => exact .pure rfl
  | piled x v => exact (al_vecIndex v a).bindId fun i => .pure rfl

theorem al_rcClone (r : RcRef) : ASim A P (RcRef.ren A) (rcClone (r.ren A) : M α _) (rcClone r) := by
  unfold rcClone
  exact ASim.bindSlot fun b L H R h => ARes.bindIncr (g := RcRef.ren A) (fun _ => .pure rfl) R h

theorem al_setBorrow (a : Addr) (b : Int) : ASim A P id (setBorrow (A.addr a) b : M α _) (setBorrow a b) :=
  .wr fun L H r hl => { r with borrow := r.write (.inl hl) (g := id) r.borrow b }
theorem al_getBorrow (a : Addr) : ASim A P id (rd (fun h => h.borrow) (A.addr a) : M α _) (rd (fun h => h.borrow) a) :=
  .rd fun L H r hl => r.borrow a (.inl hl)

theorem Data.ren_isNone (d : Data α) : (d.ren A).isNone = d.isNone := by cases d <;> rfl

theorem al_borrowMut (r : RcRef) : ASim A P A.addr (borrowMut (r.ren A) : M α _) (borrowMut r) := by
  unfold borrowMut
  refine (al_slot r).bindAddr fun a => (al_getBorrow a).bindId fun b => ?_
  split
  · refine (al_setBorrow a _).bindId fun _ => (al_getData a).bind fun d => ?_
    rw [Data.ren_isNone]
    split
    · exact (al_setBorrow a _).bindId fun _ => .throw _
    · exact .pure rfl
  · exact .throw _
theorem al_borrowShared (r : RcRef) : ASim A P A.addr (borrowShared (r.ren A) : M α _) (borrowShared r) := by
  unfold borrowShared
  refine (al_slot r).bindAddr fun a => (al_getBorrow a).bindId fun b => ?_
  split
  · refine (al_setBorrow a _).bindId fun _ => (al_getData a).bind fun d => ?_
    rw [Data.ren_isNone]
    split
    · exact (al_setBorrow a _).bindId fun _ => .throw _
    · exact .pure rfl
  · exact .throw _
theorem al_releaseMut (a : Addr) : ASim A P id (releaseMut (A.addr a) : M α _) (releaseMut a) := al_setBorrow a 0
theorem al_releaseShared (a : Addr) : ASim A P id (releaseShared (A.addr a) : M α _) (releaseShared a) :=
  (al_getBorrow a).bindId fun b => al_setBorrow a _

/-- What to do after a normal end and after a panic. -/
def Res.cont (q : Res (Heap α) γ) (k : γ → Heap α → Res (Heap α) δ) (e : Heap α → Res (Heap α) δ) : Res (Heap α) δ :=
  match q with
  | .ok b h => k b h
  | .err .panic h => e h
  | .err x h => .err x h

theorem finally_cont (c : M α γ) (fin : M α Unit) (h : Heap α) : finally_ c fin h =
    (c h).cont (fun b h => (fin h).bind fun _ s => .ok b s) (fun h => (fin h).bind fun _ s => .err .panic s) := by
  simp only [finally_, Res.cont]
  cases c h with
  | ok b L => rfl
  | err x L => cases x <;> rfl
theorem onPanic_cont (c : M α γ) (fin : M α Unit) (h : Heap α) : Trees.onPanic c fin h =
    (c h).cont (fun b h => .ok b h) (fun h => (fin h).bind fun _ s => .err .panic s) := by
  simp only [Trees.onPanic, Res.cont]
  cases c h with
  | ok b L => rfl
  | err x L => cases x <;> rfl
theorem withMutArg_cont (r : RcRef) (t : Addr) (c : Addr → M α γ) (h : Heap α) : withMutArg r t c h =
    (borrowMut r h).cont (fun a h => finally_ (c a) (releaseMut a) h) (fun h => (dropRoot t h).bind fun _ s => .err .panic s) := by
  simp only [withMutArg, Res.cont]
  cases borrowMut r h with
  | ok b L => rfl
  | err x L => cases x <;> rfl

/-- A piece of code after which something else is run. -/
theorem ARes.after {γ' δ' : Type} {f : δ → γ} {g : δ' → γ'} {q : Res (Heap α) γ} {q' : Res (Heap α) δ} (h : ARes A P f q q')
    {k : γ → Heap α → Res (Heap α) γ'} {k' : δ → Heap α → Res (Heap α) δ'} {e : Heap α → Res (Heap α) γ'}
    {d : Heap α → Res (Heap α) δ'}
    (h1 : ∀ b L H, ARel A L H → ARes A P g (k (f b) L) (k' b H)) (h2 : ∀ L H, ARel A L H → ARes A P g (e L) (d H)) :
    ARes A P g (q.cont k e) (q'.cont k' d) := by
  match q, q', h with
  | .err .alloc _, .ok b' H, h =>
    show ARes A P g (.err .alloc _) (k' b' H)
    generalize k' b' H = z
    cases z with
    | ok _ _ => exact h
    | err x _ => cases x <;> first | exact h | trivial
  | .err .alloc _, .err .panic H, h =>
    show ARes A P g (.err .alloc _) (d H)
    generalize d H = z
    cases z with
    | ok _ _ => exact h
    | err x _ => cases x <;> first | exact h | trivial
  | _, .err .ub _, _ => exact ARes.ub _ _
  | _, .err .fuel _, _ => exact ARes.fuel _ _
  | q, .err .alloc _, _ =>
    show ARes A P g _ (.err .alloc _)
    generalize q.cont k e = z
    cases z with
    | ok _ _ => trivial
    | err x _ => cases x <;> trivial
  | .ok b L, .ok b' H, h => obtain ⟨rfl, h⟩ := h; exact h1 b' L H h
  | .err .panic L, .err .panic H, h => exact h2 L H h

theorem ASim.finally {f : δ → γ} {c : M α γ} {c' : M α δ} {fin fin' : M α Unit} (hc : ASim A P f c c') (hf : ASim A P id fin fin') :
    ASim A P f (finally_ c fin) (finally_ c' fin') := by
  intro L H r
  rw [finally_cont, finally_cont]
  refine ARes.after (hc L H r) (fun b L H r => ?_) fun L H r => ?_
  · exact (hf.bind (k := fun _ => Pure.pure (f b)) (k' := fun _ => Pure.pure b) (g := f) fun _ => .pure rfl) L H r
  · exact (hf.bind (k := fun _ => M.throw .panic) (k' := fun _ => M.throw .panic) (g := f) fun _ => .throw _) L H r

theorem ASim.onPanic {f : δ → γ} {c : M α γ} {c' : M α δ} {fin fin' : M α Unit} (hc : ASim A P f c c') (hf : ASim A P id fin fin') :
    ASim A P f (onPanic c fin) (onPanic c' fin') := by
  intro L H r
  rw [onPanic_cont, onPanic_cont]
  refine ARes.after (hc L H r) (fun b L H r => ⟨rfl, r⟩) fun L H r => ?_
  exact (hf.bind (k := fun _ => M.throw .panic) (k' := fun _ => M.throw .panic) (g := f) fun _ => .throw _) L H r

theorem ASim.withMut {f : δ → γ} {r : RcRef} {c : Addr → M α γ} {c' : Addr → M α δ} (hc : ∀ a, ASim A P f (c (A.addr a)) (c' a)) :
    ASim A P f (withMut (r.ren A) c) (withMut r c') :=
  (al_borrowMut r).bindAddr fun a => (hc a).finally (al_releaseMut a)
theorem ASim.withShared {f : δ → γ} {r : RcRef} {c : Addr → M α γ} {c' : Addr → M α δ} (hc : ∀ a, ASim A P f (c (A.addr a)) (c' a)) :
    ASim A P f (withShared (r.ren A) c) (withShared r c') :=
  (al_borrowShared r).bindAddr fun a => (hc a).finally (al_releaseShared a)
theorem ASim.withMutArg {f : δ → γ} {r : RcRef} {t : Addr} {c : Addr → M α γ} {c' : Addr → M α δ} (hc : ∀ a, ASim A P f (c (A.addr a)) (c' a)) :
    ASim A P f (withMutArg (r.ren A) (A.addr t) c) (withMutArg r t c') := by
  intro L H R
  rw [withMutArg_cont, withMutArg_cont]
  refine ARes.after (al_borrowMut r L H R) (fun b L H r => ?_) fun L H r => ?_
  · exact (hc b).finally (al_releaseMut b) L H r
  · exact ((al_dropRoot t).bind (k := fun _ => M.throw .panic) (k' := fun _ => M.throw .panic) (g := f) fun _ => .throw _) L H r

theorem al_guardShared (r : RcRef) : ASim A P A.addr (guardShared (r.ren A) : M α _) (guardShared r) :=
  (al_borrowShared r).bindAddr fun a =>
    (ASim.onPanic ((al_dataRef a).bindId fun _ => .pureId _) (al_releaseShared a)).bindId fun _ => .pure rfl
theorem al_guardMut (r : RcRef) : ASim A P A.addr (guardMut (r.ren A) : M α _) (guardMut r) :=
  (al_borrowMut r).bindAddr fun a =>
    (ASim.onPanic ((al_dataRef a).bindId fun _ => .pureId _) (al_releaseMut a)).bindId fun _ => .pure rfl

theorem al_popFrontRc (r : RcRef) : ASim A P (Option.map (RcRef.ren A)) (popFrontRc (r.ren A) : M α _) (popFrontRc r) :=
  .withMut fun a => ASim.bindOpt (al_popFront a) (.pure rfl) fun c => (al_intoRc c).bind fun q => .pure rfl
theorem al_popBackRc (r : RcRef) : ASim A P (Option.map (RcRef.ren A)) (popBackRc (r.ren A) : M α _) (popBackRc r) :=
  .withMut fun a => ASim.bindOpt (al_popBack a) (.pure rfl) fun c => (al_intoRc c).bind fun q => .pure rfl

theorem dropInPlace_apply (o : Addr) (h : Heap α) : dropInPlace o h =
    if h.live o then .ok () { h with live := upd h.live o false, log := h.log ++ (h.data o).val?.toList } else .err .ub h := by
  show Res.bind (getData o h) _ = _
  simp only [getData, rd]
  by_cases hl : h.live o = true
  · rw [if_pos hl, if_pos hl]; rfl
  · rw [if_neg hl, if_neg hl]; rfl

theorem al_dropInPlace (o : Addr) : ASim A P id (dropInPlace (A.addr o) : M α _) (dropInPlace o) := by
  intro L H r
  rw [dropInPlace_apply, dropInPlace_apply]
  by_cases hl : H.live o = true
  · rw [if_pos hl, if_pos (r.live o hl), r.data o (.inl hl), Data.ren_val]
    have hsub : ∀ b, upd H.live o false b = true → H.live b = true ∧ b ≠ o := by
      intro b hb
      simp only [upd_apply] at hb
      split at hb
      · simp at hb
      · exact ⟨hb, by assumption⟩
    have hh : ∀ {H' : Heap α} b, H'.Here b → H'.live = upd H.live o false → H'.vec = H.vec → H.Here b := by
      intro H' b hb e1 e2
      exact hb.of (fun c hc => (hsub c (by rw [← e1]; exact hc)).1) (fun w nw hw => ⟨nw, by rw [← e2]; exact hw, rfl, rfl⟩)
    refine ⟨rfl, ?_⟩
    constructor
    case live =>
      intro b hb
      obtain ⟨h1, h2⟩ := hsub b hb
      show upd L.live (A.addr o) false (A.addr b) = true
      rw [upd_of_ne _ _ (fun e => h2 (r.inj b o (.inl h1) (.inl hl) e))]
      exact r.live b h1
    case onto =>
      intro x hx
      simp only [upd_apply] at hx
      split at hx
      · simp at hx
      · rename_i hne
        obtain ⟨a, h1, h2⟩ := r.onto x hx
        refine ⟨a, ?_, h2⟩
        show upd H.live o false a = true
        rw [upd_of_ne _ _ (fun e => hne (by rw [← h2, e]))]
        exact h1
    case inj => exact fun a b ha hb => r.inj a b (hh a ha rfl rfl) (hh b hb rfl rfl)
    case prev => exact fun a ha => r.prev a (hh a ha rfl rfl)
    case next => exact fun a ha => r.next a (hh a ha rfl rfl)
    case head => exact fun a ha => r.head a (hh a ha rfl rfl)
    case tail => exact fun a ha => r.tail a (hh a ha rfl rfl)
    case up => exact fun a ha => r.up a (hh a ha rfl rfl)
    case size => exact fun a ha => r.size a (hh a ha rfl rfl)
    case data => exact fun a ha => r.data a (hh a ha rfl rfl)
    case count => exact fun a ha => r.count a (hh a ha rfl rfl)
    case borrow => exact fun a ha => r.borrow a (hh a ha rfl rfl)
    case sep => exact fun v nv hv a ha => r.sep v nv hv a (hh a ha rfl rfl)
    case lbnd => exact fun a ha => r.lbnd a (hsub a ha).1
    case log => simp only [r.log]
    all_goals first | exact r.vec | exact r.vonto | exact r.vinj | exact r.slots | exact r.known | exact r.vbnd | exact r.nextAddr | exact r.nextVec
  · rw [if_neg hl]; exact ARes.ub _ _

mutual
theorem al_dropRc : ∀ (k : Nat) (r : RcRef), ASim A P id (dropRc k (r.ren A) : M α _) (dropRc k r)
  | 0, r => .throw _
  | k+1, .scattered a => by
    unfold dropRc RcRef.ren
    refine ASim.bindSlot (r := .scattered a) fun b L H R h => ARes.bindCount (fun n => ?_) R h
    split
    · exact (al_drainRc k (.scattered b)).bindId fun _ => al_rcDrop b
    · exact al_rcDrop b
  | k+1, .piled v i => by
    unfold dropRc RcRef.ren
    refine ASim.bindSlot (r := .piled v i) fun b L H R h => ARes.bindDecr (fun n => ?_) R h
    split
    · exact (al_drainRc k (.piled v i)).bindId fun _ => (al_dropInPlace b).bindId fun _ => al_decrRef v
    · exact al_decrRef v
theorem al_drainRc : ∀ (k : Nat) (r : RcRef), ASim A P id (drainRc k (r.ren A) : M α _) (drainRc k r)
  | 0, r => .throw _
  | k+1, r => by
    unfold drainRc
    refine (al_popFrontRc r).bind fun o => ?_
    cases o with
    | none => exact .pureId _
    | some c => exact (al_dropRc k c).bindId fun _ => al_drainRc k r
end

theorem al_dropHandle (r : RcRef) : ASim A P id (dropHandle (r.ren A) : M α _) (dropHandle r) := by
  intro L H R
  simp only [dropHandle, M.fuelled_apply]
  cases r with
  | scattered a =>
    by_cases hl : H.live a = true
    · have : L.size ((RcRef.scattered a |>.ren A).at L) = H.size ((RcRef.scattered a).at H) := R.size a (.inl hl)
      rw [this]; exact al_dropRc _ _ L H R
    · have : dropRc (2 * (H.size ((RcRef.scattered a).at H)).descendants + 2) (.scattered a) H = .err .ub H := by
        unfold dropRc; rw [M.bind_apply]; simp only [RcRef.slot, if_neg hl]; rfl
      rw [this]; exact ARes.ub _ _
  | piled v i =>
    by_cases hv : ∃ nv, H.vec v = some nv ∧ i < nv.cap
    · obtain ⟨nv, hv, hi⟩ := hv
      have : L.size ((RcRef.piled v i |>.ren A).at L) = H.size ((RcRef.piled v i).at H) := by
        simp only [RcRef.ren, RcRef.at, hv, R.vec v nv hv]
        rw [← R.slots v nv hv i hi]
        exact R.size _ (.inr ⟨v, nv, hv, Nat.le_add_right _ _, Nat.add_lt_add_left hi _⟩)
      rw [this]; exact al_dropRc _ _ L H R
    · have : dropRc (2 * (H.size ((RcRef.piled v i).at H)).descendants + 2) (.piled v i) H = .err .ub H := by
        unfold dropRc
        rw [M.bind_apply]
        simp only [vecNode]
        cases e : H.vec v with
        | none => rfl
        | some nv =>
          simp only
          rw [if_neg (fun h => hv ⟨nv, e, h⟩)]; rfl
      rw [this]; exact ARes.ub _ _

theorem al_parentLoop : ∀ (k : Nat) (a : Addr), ASim A P (Option.map A.addr) (parentLoop k (A.addr a) : M α _) (parentLoop k a) := by
  intro k
  induction k with
  | zero => intro a; unfold parentLoop; al
  | succ k ih => intro a; unfold parentLoop; al; exact ih _
theorem al_parent (a : Addr) : ASim A P (Option.map A.addr) (parent (A.addr a) : M α _) (parent a) := by
  unfold parent
  exact .fuelled fun L H r => by rw [r.nextAddr]; exact al_parentLoop _ _

theorem al_detachRc (r : RcRef) : ASim A P id (detachRc (r.ren A) : M α _) (detachRc r) :=
  .withMut fun a => (al_detach a).bindAddr fun c => (al_intoRc c).bind fun q => al_dropHandle q
theorem al_frontRc (r : RcRef) : ASim A P (Option.map (RcRef.ren A)) (frontRc (r.ren A) : M α _) (frontRc r) :=
  .withShared fun a => ASim.bindOpt (al_front a) (.pure rfl) fun c => (al_nodeRc c).bind fun q => .pure rfl
theorem al_backRc (r : RcRef) : ASim A P (Option.map (RcRef.ren A)) (backRc (r.ren A) : M α _) (backRc r) :=
  .withShared fun a => ASim.bindOpt (al_back a) (.pure rfl) fun c => (al_nodeRc c).bind fun q => .pure rfl
theorem al_parentRc (r : RcRef) : ASim A P (Option.map (RcRef.ren A)) (parentRc (r.ren A) : M α _) (parentRc r) :=
  .withShared fun a => ASim.bindOpt (al_parent a) (.pure rfl) fun c => (al_nodeRc c).bind fun q => .pure rfl
theorem al_isRootRc (r : RcRef) : ASim A P id (isRootRc (r.ren A) : M α _) (isRootRc r) :=
  .withShared fun a => ASim.bindOpt (al_parent a) (.pure rfl) fun c => .pure rfl
theorem al_iterRc (r : RcRef) : ASim A P (RawIter.ren A) (iterRc (r.ren A) : M α _) (iterRc r) :=
  .withShared fun a => (al_hasNoChild a).bindId fun b => by
    split
    · exact .pure rfl
    · exact (al_front a).bind fun c => (al_degree a).bindId fun n => .pure rfl
theorem al_iterRcNext (it : RawIter) : ASim A P (fun q => (q.1.map (RcRef.ren A), q.2.ren A)) (iterRcNext (it.ren A) : M α _) (iterRcNext it) :=
  ASim.bindIt (fun i => .pure rfl) fun a i => (al_nodeRc a).bind fun q => .pure rfl
theorem al_dropWeak (r : RcRef) : ASim A P id (dropWeak (r.ren A) : M α _) (dropWeak r) := by
  cases r with
  | scattered a => exact .pureId _
  | piled v i => exact al_decrRef v
theorem al_upgradeWeak (r : RcRef) {L H : Heap α} (R : ARel A L H)
    (hw : ∀ a, r = .scattered a → ∀ b, H.live b = true → A.addr b = A.addr a → b = a) :
    ARes A P (Option.map (RcRef.ren A)) (upgradeWeak (r.ren A) L) (upgradeWeak r H) := by
  cases r with
  | scattered a =>
    simp only [upgradeWeak, RcRef.ren]
    by_cases hl : H.live a = true
    · rw [if_pos hl, if_pos (R.live a hl)]
      exact ARes.bindIncr (g := Option.map (RcRef.ren A)) (k := fun _ => Pure.pure (some (RcRef.scattered (A.addr a))))
        (k' := fun _ => Pure.pure (some (RcRef.scattered a))) (fun _ => .pure rfl) R (.inl hl)
    · rw [if_neg hl, if_neg]
      · exact ⟨rfl, R⟩
      · intro h
        obtain ⟨b, h1, h2⟩ := R.onto _ h
        exact hl (hw a rfl b h1 h2 ▸ h1)
  | piled v i =>
    refine (ASim.bindSlot (A := A) (r := .piled v i) (g := Option.map (RcRef.ren A)) (k := fun s => getCount s >>= fun n => if n = 0 then pure none else incrCount s >>= fun _ => pure (some (.piled (A.vec v) i)))
      (k' := fun s => getCount s >>= fun n => if n = 0 then pure none else incrCount s >>= fun _ => pure (some (.piled v i))) ?_) L H R
    intro a L H R h
    rw [M.bind_apply, M.bind_apply]
    simp only [getCount, Res.bind, R.count a h]
    split
    · exact ⟨rfl, R⟩
    · exact ARes.bindIncr (g := Option.map (RcRef.ren A)) (fun _ => ASim.pure (b' := some (RcRef.piled v i)) rfl) R h
theorem al_intoTreeRc (r : RcRef) : ASim A P A.addr (intoTreeRc (r.ren A) : M α _) (intoTreeRc r) := by
  unfold intoTreeRc
  refine (al_isRootRc r).bindId fun b => ?_
  split
  · cases r with
    | scattered a => exact ASim.withMut (r := .scattered a) fun a => al_treeFromNode a
    | piled v i => exact (al_vecNode v i).bindAddr fun a => al_treeFromNode a
  · exact .throw _
theorem al_intoTree (r : RcRef) : ASim A P A.addr (intoTree (r.ren A) : M α _) (intoTree r) :=
  (al_intoTreeRc r).onPanic (al_dropHandle r)

end Trees
