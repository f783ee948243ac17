import Verif.Proof.Crash
import Verif.Proof.CrashDrop
/-
Panics of user code: the calls.
-/
namespace Trees
set_option linter.unusedSimpArgs false
set_option linter.unusedVariables false
variable {α β γ σ ι κ δ : Type}
open RTree

theorem join_false (h F : Heap α) : join (fun _ => false) (fun _ => false) h F = h := by
  simp [join]

theorem avoid_false (h : Heap α) : Avoid (fun _ => false) (fun _ => false) h :=
  ⟨fun _ h => by simp at h, fun _ h => by simp at h, fun _ h => by simp at h, fun _ h => by simp at h, fun _ _ _ _ _ => rfl⟩

section
variable {nxt : σ → M α (Option (α × Size) × σ)} {drp : σ → M α Unit} {R : σ → Heap α → List (α × Size) → Prop} {E : Heap α → Prop}

/-- A source that panics after some visits. -/
structure SrcPanic (nxt : σ → M α (Option (α × Size) × σ)) (R : σ → Heap α → List (α × Size) → Prop) (E : Heap α → Prop) : Prop where
  framed : ∀ s, Framed (nxt s)
  cons : ∀ s h x xs, R s h (x :: xs) → ∃ s' h', nxt s h = .ok (some x, s') h' ∧ R s' h' xs
  nil : ∀ s h, R s h [] → ∃ h', E h' ∧ ∀ P Q F, Avoid P Q h → Avoid P Q h' ∧ nxt s (join P Q h F) = .err .panic (join P Q h' F)
  st : ∀ s h xs, R s h xs → SInv h
  bump : ∀ s h xs n, R s h xs → R s (bumped h n) xs

theorem fill_panic (hR : SrcPanic nxt R E) {s : σ} {h : Heap α} {ts : List (RTree α)} {j : Nat} (hs : R s h ((visits ts).take j))
    (hj : j < countL ts) {n : Nat} (hn : n = (qbfs ts).length + 1) {dat : Nat → Data α}
    (hdat : ∀ v, dat v = .piledNone v ∨ ∃ d, dat v = .piled d v) :
    ∃ F1 hs' H, newVec n h = .ok h.nextVec (join (blkP h.nextAddr n) (blkQ h.nextVec) (bumped h n) (rawBlock h.nextVec h.nextAddr n)) ∧
      vecMakeNode h.nextVec none 0 (dat h.nextVec) ⟨ts.length, countL ts⟩
        (join (blkP h.nextAddr n) (blkQ h.nextVec) (bumped h n) (rawBlock h.nextVec h.nextAddr n)) =
        .ok h.nextAddr (join (blkP h.nextAddr n) (blkQ h.nextVec) (bumped h n) F1) ∧
      fillLoop nxt h.nextVec n s 0 1 ts.length (join (blkP h.nextAddr n) (blkQ h.nextVec) (bumped h n) F1) = .err .panic H ∧
      Leak hs' H ∧ E hs' := by
  have hS := hR.st _ _ _ hs
  have A := bumped_avoid hS n
  obtain ⟨F1, e1, hb, hU, hup, hsz, hd⟩ := makeRoot_ok (h := bumped h n) (v := h.nextVec) (base := h.nextAddr) (n := n) (by omega)
    (sz := ⟨ts.length, countL ts⟩) (hdat h.nextVec)
  subst hn
  have B := FInv.start (ts := ts) hb hU hup hsz rfl hd
  have hl := length_qbfs ts
  obtain ⟨hs', F, K, e2, B2, A2, hE⟩ := fillLoop_panic hR.framed hR.cons hR.nil ((qbfs ts).length + 1) s 0 1 ts.length j F1 _ _ B (by omega) (by omega) A
    (by omega) (by omega) (by simp [off, slotKids]) (by simp [slotKids])
    (by simp) (by simpa [visits] using hR.bump _ _ _ ((qbfs ts).length + 1) hs)
  exact ⟨F1, hs', _, newVec_join _ _, e1, e2, .more (fun _ => rfl) (HRel.of_join A2 (by omega) B2.b.vec) (.refl _), hE⟩

theorem treeFromBfs_panic (hR : SrcPanic nxt R E) {s : σ} {h : Heap α} {t : RTree α} {j : Nat} (hs : R s h ((visits [t]).take j))
    (hj : j < t.count) : ∃ hs' H, treeFromBfs nxt drp s h = .err .panic H ∧ Leak hs' H ∧ E hs' := by
  cases j with
  | zero =>
    rw [List.take_zero] at hs
    obtain ⟨h', hE, hf⟩ := hR.nil _ _ hs
    obtain ⟨-, e⟩ := hf _ _ h (avoid_false h)
    rw [join_false, join_false] at e
    exact ⟨h', h', by simp only [treeFromBfs, M.bind_apply, e, Res.bind_err], .refl _, hE⟩
  | succ j =>
    rw [visits, qbfs_cons, List.map_cons, List.nil_append, List.take_succ_cons] at hs
    obtain ⟨s1, h1, e0, hs1⟩ := hR.cons _ _ _ _ hs
    obtain ⟨F1, hs', H, e1, e2, e3, l, hE⟩ := fill_panic hR (n := (szOf t).descendants + 1) (ts := t.kids) (j := j) hs1
      (by rw [count_eq] at hj; omega) (by simp [szOf, length_qbfs]) (dat := fun v => .piled t.data v) (fun v => .inr ⟨_, rfl⟩)
    refine ⟨hs', H, ?_, l, hE⟩
    simp only [treeFromBfs, M.bind_apply, e0, Res.bind_ok, unwrap, M.pure_apply, e1, makePiledNode, treeFromNode]
    simp only [show (⟨t.kids.length, countL t.kids⟩ : Size) = szOf t from rfl] at e2
    simp only [show t.kids.length = (szOf t).degree from rfl] at e3
    rw [e2]
    simp only [Res.bind_ok, e3, Res.bind_err]

theorem forestFromBfs_panic (hR : SrcPanic nxt R E) {s : σ} {h : Heap α} {ts : List (RTree α)} {j : Nat} (hs : R s h ((visits ts).take j))
    (hj : j < countL ts) : ∃ hs' H, forestFromBfs nxt drp s ⟨ts.length, countL ts⟩ h = .err .panic H ∧ Leak hs' H ∧ E hs' := by
  obtain ⟨F1, hs', H, e1, e2, e3, l, hE⟩ := fill_panic hR (n := countL ts + 1) hs hj
    (by simp [length_qbfs]) (dat := fun v => .piledNone v) (fun v => .inl rfl)
  refine ⟨hs', H, ?_, l, hE⟩
  simp only [forestFromBfs, M.bind_apply, Res.bind_ok, M.pure_apply, e1, e2, e3, Res.bind_err]

end

/-! ### From the queue of an iteration -/

section
variable {S : Src α ι κ α} {I : Heap α → List ι → List (List (RTree α)) → Prop} {f : Nat → α → Option α} {ts : List (RTree α)} {n : Nat}
  {unw : α → List ι → M α Unit}

theorem crash_panic (hS : SrcSpec S I) (hFr : S.Framed) (hu : ∀ d s, Framed (unw d s)) (hst : ∀ h s tss, I h s tss → SInv h)
    (hbump : ∀ h s tss k, I h s tss → I (bumped h k) s tss) {E : Heap α → Prop} {tn : RTree α}
    (hp : firstPanic f ts = some n) (h1 : (levelOrder ts)[n]? = some tn)
    (hE : ∀ h s tss, I h s tss → tss.flatten = bfsRest (n + 1) ts → ∃ h', unw tn.data s h = .ok () h' ∧ E h') :
    SrcPanic (mapNextC f (splittedNext S) unw) (CrashR I f ts n) E := by
  obtain ⟨p1, ⟨t, p2, p3⟩, p4⟩ := firstPanic_some hp
  rw [h1, Option.some.injEq] at p2
  subst p2
  refine ⟨framed_mapNextC hFr.splittedNext hu, crash_cons hS (Nat.le_of_lt p1) p4, crash_nil hS hFr hu h1 p3 hE, ?_, ?_⟩
  · rintro s h xs ⟨tss, hI, -⟩; exact hst _ _ _ hI
  · rintro s h xs k ⟨tss, hI, r⟩; exact ⟨tss, hbump _ _ _ k hI, r⟩

theorem crash_full (hS : SrcSpec S I) (hFr : S.Framed) (hu : ∀ d s, Framed (unw d s)) {E : Heap α → Prop}
    (hFull : SrcFull (splittedNext S) (dropIters S) (SrcR I) E) (hst : ∀ h s tss, I h s tss → SInv h)
    (hbump : ∀ h s tss k, I h s tss → I (bumped h k) s tss) (hp : firstPanic f ts = none) :
    SrcFull (mapNextC f (splittedNext S) unw) (fun s => dropIters S s.1) (CrashR I f ts (countL ts)) E := by
  refine ⟨⟨framed_mapNextC hFr.splittedNext hu, crash_cons hS (Nat.le_refl _) (fun j t _ ht => firstPanic_none hp j t ht), crash_end hS rfl⟩,
    ?_, ?_, fun s => hFull.dframed _, ?_⟩
  · rintro s h xs ⟨tss, hI, -⟩; exact hst _ _ _ hI
  · rintro s h xs k ⟨tss, hI, r⟩; exact ⟨tss, hbump _ _ _ k hI, r⟩
  · rintro ⟨s, k⟩ h ⟨tss, hI, hle, hfl, e⟩
    refine hFull.fin s h ⟨tss, hI, ?_⟩
    simp only at hle hfl e
    have hk : k = countL ts := by
      have := congrArg List.length e
      simp only [List.length_nil, List.length_take, List.length_drop, List.length_mapIdx, length_visits] at this
      omega
    rw [hfl, visits_bfsRest hle, List.drop_eq_nil_of_le (by rw [length_visits]; omega)]

theorem CrashR.start {h : Heap α} {s : List ι} (hI : I h s [ts]) : CrashR I f ts n (s, 0) h
    (((visits ts).mapIdx (fun i v => (orSame f i v.1, v.2))).take n) :=
  ⟨[ts], hI, Nat.zero_le _, by simp [bfsRest], by simp⟩

end

/-! ### The four calls -/

/-- What a call leaves behind. -/
def Left (env : Var → Option Handle) (fr : Nat) (S : Store α) (h : Heap α) : Prop :=
  ∃ K, MInv ⟨h, env, fr⟩ K ∧ Abs ⟨h, env, fr⟩ K S

section
variable {m : Machine α} {K : Addr → List Addr} {S : Store α}

theorem refI_st {env : Var → Option Handle} {fr : Nat} (h : Heap α) (s : List RawIter) (tss : List (List (RTree α)))
    (hI : RefI (MOK env fr S) h s tss) : SInv h := by
  obtain ⟨K, ⟨MI, -⟩, -⟩ := hI; exact MI.st

theorem refI_bump {env : Var → Option Handle} {fr : Nat} (h : Heap α) (s : List RawIter) (tss : List (List (RTree α))) (k : Nat)
    (hI : RefI (MOK env fr S) h s tss) : RefI (MOK env fr S) (bumped h k) s tss := by
  obtain ⟨K, ⟨MI, A⟩, H⟩ := hI
  exact ⟨K, ⟨minv_bump MI k, abs_bump A k⟩, H.imp fun _ _ h => h.bump k⟩

theorem refI_unwind {env : Var → Option Handle} {fr : Nat} {ts : List (RTree α)} {n : Nat} (d : α) (h : Heap α) (s : List RawIter) (tss : List (List (RTree α)))
    (hI : RefI (MOK env fr S) h s tss) (_ : tss.flatten = bfsRest (n + 1) ts) : ∃ h', refUnwind d s h = .ok () h' ∧ Left env fr S h' := by
  obtain ⟨K, ⟨MI, A⟩, H⟩ := hI
  exact ⟨h, refDrop s h, K, MI, A⟩

theorem mapBfsC_sim (M : MInv m K) (A : Abs m K S) {n : Addr} {t : RTree α} (hn : m.heap.Used n) (hd : Den m.heap.val K n t)
    (f : Nat → α → Option α) :
    match firstPanic f [t] with
    | none => ∃ a h', mapBfsC f n m.heap = .ok a h' ∧
        Sim (m.retVar h' m.env (.tree a)) (.ok (S.bind (.tree (updLevel (orSame f) t))) (.var S.fresh))
    | some _ => ∃ hs H, mapBfsC f n m.heap = .err .panic H ∧ Leak hs H ∧ Left m.env m.fresh S hs := by
  have hI : RefI (MOK m.env m.fresh S) m.heap (bfsStart n) [[t]] :=
    ⟨K, ⟨M, A⟩, .cons ⟨[n], once_at hn, by simpa using hn, by simpa using hd⟩ .nil⟩
  have hsp := refSpec (P := MOK m.env m.fresh S) (fun h K hp => hp.1.inv)
  have hv := visits_updLevel (orSame f) t
  cases hp : firstPanic f [t] with
  | none =>
    have hF := crash_full hsp framed_refSrc framed_refUnwind (refFull m.env m.fresh S) refI_st refI_bump hp
    have h0 := CrashR.start (f := f) (n := countL [t]) hI
    rw [← hv, List.take_of_length_le (by rw [hv, List.length_mapIdx, length_visits]; exact Nat.le_refl _)] at h0
    obtain ⟨a, h', e, B⟩ := treeFromBfs_ok hF (s := (bfsStart n, 0)) (t := updLevel (orSame f) t) h0
    refine ⟨a, h', e, ?_⟩
    refine B.sim (hd := .tree a) rfl (fun w => .inl ⟨a, _, _, rfl, rfl, ?_, rfl⟩)
    rw [eta]
  | some j =>
    obtain ⟨p1, ⟨tn, p2, p3⟩, p4⟩ := firstPanic_some hp
    have hF := crash_panic hsp framed_refSrc framed_refUnwind refI_st refI_bump hp p2 (refI_unwind (ts := [t]) (n := j) tn.data)
    have h0 := CrashR.start (f := f) (n := j) hI
    rw [← hv] at h0
    exact treeFromBfs_panic hF h0 (by
      have := congrArg List.length hv
      rw [List.length_mapIdx, length_visits, length_visits] at this
      simp at this p1
      omega)

theorem mapBfsForestC_sim (M : MInv m K) (A : Abs m K S) {n : Addr} {ts : List (RTree α)} (hn : m.heap.Used n)
    (hd : DenL m.heap.val K (K n) ts) (f : Nat → α → Option α) :
    match firstPanic f ts with
    | none => ∃ a h', mapBfsForestC f n m.heap = .ok a h' ∧
        Sim (m.retVar h' m.env (.forest a)) (.ok (S.bind (.forest (updLevelL (orSame f) ts))) (.var S.fresh))
    | some _ => ∃ hs H, mapBfsForestC f n m.heap = .err .panic H ∧ Leak hs H ∧ Left m.env m.fresh S hs := by
  obtain ⟨it, e0, hit, -⟩ := iter_den M.inv hn hd
  have hI : RefI (MOK m.env m.fresh S) m.heap [it] [ts] := ⟨K, ⟨M, A⟩, .cons hit .nil⟩
  have hsz := M.inv.sz_den hn hd
  have hsp := refSpec (P := MOK m.env m.fresh S) (fun h K hp => hp.1.inv)
  have hv := visits_updLevelL (orSame f) ts
  have hrun : ∀ r, forestFromBfs (mapNextC f (splittedNext refSrc) refUnwind) (fun s => dropIters refSrc s.1) ([it], 0)
      ⟨(updLevelL (orSame f) ts).length, countL (updLevelL (orSame f) ts)⟩ m.heap = r → mapBfsForestC f n m.heap = r := by
    intro r e
    simp only [mapBfsForestC, bfsChildrenStart, Trees.M.bind_apply, e0, Res.bind_ok, Trees.M.pure_apply, getSize_ok hn.1, hsz]
    rw [countL_updLevelL, updLevelL_length] at e
    exact e
  cases hp : firstPanic f ts with
  | none =>
    have hF := crash_full hsp framed_refSrc framed_refUnwind (refFull m.env m.fresh S) refI_st refI_bump hp
    have h0 := CrashR.start (f := f) (n := countL ts) hI
    rw [← hv, List.take_of_length_le (by rw [hv, List.length_mapIdx, length_visits]; exact Nat.le_refl _)] at h0
    obtain ⟨a, h', e, B⟩ := forestFromBfs_ok hF (s := ([it], 0)) (ts := updLevelL (orSame f) ts) h0
    exact ⟨a, h', hrun _ e, B.sim (hd := .forest a) rfl (fun w => .inr ⟨a, rfl, rfl, rfl⟩)⟩
  | some j =>
    obtain ⟨p1, ⟨tn, p2, p3⟩, p4⟩ := firstPanic_some hp
    have hF := crash_panic hsp framed_refSrc framed_refUnwind refI_st refI_bump hp p2 (refI_unwind (ts := ts) (n := j) tn.data)
    have h0 := CrashR.start (f := f) (n := j) hI
    rw [← hv] at h0
    obtain ⟨hs, H, e, l, hE⟩ := forestFromBfs_panic (drp := fun s => dropIters refSrc s.1) hF h0 (by rw [countL_updLevelL]; exact p1)
    exact ⟨hs, H, hrun _ e, l, hE⟩

section
variable {env0 : Var → Option Handle} {fr0 : Nat} {V0 : Var → Option (Val α)} {L : List α}

theorem mok_log {env : Var → Option Handle} {fr : Nat} {h : Heap α} (M : MOK env fr S h K) (d : α) :
    MOK env fr (S.drop [d]) { h with log := h.log ++ [d] } K := by
  obtain ⟨M, A⟩ := M
  have hI := M.inv
  have hS := M.st
  refine ⟨⟨⟨⟨hI.l.head, hI.l.tail, hI.l.mem, hI.l.upU, hI.l.links, hI.l.nodup, hI.l.root⟩, hI.s, hI.b⟩,
    ⟨hS.liveB, hS.vecB, hS.cnt, hS.pos, hS.disj, hS.owner, hS.tight⟩, M.kv, fun x hd hx => ⟨(M.hnd x hd hx).used, (M.hnd x hd hx).root, by
      have := (M.hnd x hd hx).kind
      cases hd <;> exact this⟩, M.dist, M.all, M.fr⟩, ⟨fun x => ?_, A.fresh, ?_⟩⟩
  · have := A.vars x
    show match env x with
      | none => S.vars x = none
      | some hd => ∃ v, S.vars x = some v ∧ HDen _ K hd v
    cases hx : env x with
    | none => simp only [hx] at this; exact this
    | some hd =>
      simp only [hx] at this
      obtain ⟨v, e, hv⟩ := this
      refine ⟨v, e, ?_⟩
      cases hd <;> cases v <;> exact hv
  · simp only [Store.drop]; rw [A.log]

theorem ownI_unwind (he : ∀ z, fr0 ≤ z → env0 z = none) (hV : ∀ z, fr0 ≤ z → V0 z = none) {ts : List (RTree α)} {n : Nat} (d : α)
    (h : Heap α) (s : List Addr) (tss : List (List (RTree α))) (hI : OwnI env0 fr0 V0 L h s tss) (hf : tss.flatten = bfsRest (n + 1) ts) :
    ∃ h', ownUnwind d s h = .ok () h' ∧ Left env0 fr0 ⟨V0, fr0, L ++ d :: postL (bfsRest (n + 1) ts)⟩ h' := by
  have hI' : OwnI env0 fr0 V0 (L ++ [d]) { h with log := h.log ++ [d] } s tss := by
    obtain ⟨env, fr, S, K, xs, Q⟩ := hI
    exact ⟨env, fr, S.drop [d], K, xs, mok_log Q.ok d, by simp [Store.drop, Q.log], Q.envQ, Q.varQ, Q.nodup, Q.ge, Q.lefr, Q.low, Q.high⟩
  obtain ⟨h', e, H⟩ := ownDrop s _ _ tss hI'
  rw [hf] at H
  have := H.fin he hV
  rw [List.append_assoc] at this
  exact ⟨h', by simp only [ownUnwind, M.bind_apply, logDrop, Res.bind_ok, e], this⟩

theorem ownI_st (h : Heap α) (s : List Addr) (tss : List (List (RTree α))) (hI : OwnI env0 fr0 V0 L h s tss) : SInv h := by
  obtain ⟨env, fr, S, K, xs, Q⟩ := hI; exact Q.ok.1.st

theorem ownI_bump (h : Heap α) (s : List Addr) (tss : List (List (RTree α))) (k : Nat) (hI : OwnI env0 fr0 V0 L h s tss) :
    OwnI env0 fr0 V0 L (bumped h k) s tss := by
  obtain ⟨env, fr, S, K, xs, Q⟩ := hI
  exact ⟨env, fr, S, K, xs, { Q with ok := ⟨minv_bump Q.ok.1 k, abs_bump Q.ok.2 k⟩ }⟩

end

theorem left_eq (A : Abs m K S) {x : Var} {n : Nat} {ts : List (RTree α)} {tn : RTree α} (h1 : (levelOrder ts)[n]? = some tn) :
    (⟨(S.set x none).vars, m.fresh, S.dropped ++ tn.data :: postL (bfsRest (n + 1) ts)⟩ : Store α) =
      (S.set x none).drop (unwound n ts) := by
  rw [← A.fresh]
  simp [Store.drop, Store.set, unwound, h1]

theorem rebuildTreeC_sim (M : MInv m K) (A : Abs m K S) {x : Var} {r : Addr} {t : RTree α} (hx : m.env x = some (.tree r))
    (hv : S.vars x = some (.tree t)) (f : Nat → α → Option α) :
    match firstPanic f [t] with
    | none => ∃ a h', rebuildTreeC f r m.heap = .ok a h' ∧
        Sim (m.retVar h' (m.setEnv x none) (.tree a)) (.ok ((S.set x none).bind (.tree (updLevel (orSame f) t))) (.var S.fresh))
    | some n => ∃ hs H, rebuildTreeC f r m.heap = .err .panic H ∧ Leak hs H ∧
        Left (m.setEnv x none) m.fresh ((S.set x none).drop (unwound n [t])) hs := by
  obtain ⟨l1, l2⟩ := own_low M A x
  have hFull := ownFull (L := S.dropped) l1 l2
  rw [store_eq_set A] at hFull
  obtain ⟨it, h1, e1, O⟩ := own_tree M A hx hv
  have hvis := visits_updLevel (orSame f) t
  cases hp : firstPanic f [t] with
  | none =>
    have hF := crash_full ownSpec framed_ownSrc framed_ownUnwind hFull ownI_st ownI_bump hp
    have h0 := CrashR.start (f := f) (n := countL [t]) O
    rw [← hvis, List.take_of_length_le (by rw [hvis, List.length_mapIdx, length_visits]; exact Nat.le_refl _)] at h0
    obtain ⟨a, h', e2, B⟩ := treeFromBfs_ok hF (s := ([it], 0)) (t := updLevel (orSame f) t) h0
    refine ⟨a, h', ?_, ?_⟩
    · simp only [rebuildTreeC, Trees.M.bind_apply, e1, Res.bind_ok, e2]
    · refine B.sim (hd := .tree a) rfl (fun w => .inl ⟨a, _, _, rfl, rfl, ?_, rfl⟩)
      rw [eta]
  | some j =>
    obtain ⟨p1, ⟨tn, p2, p3⟩, p4⟩ := firstPanic_some hp
    have hF := crash_panic ownSpec framed_ownSrc framed_ownUnwind ownI_st ownI_bump hp p2
      (ownI_unwind (L := S.dropped) l1 l2 (ts := [t]) (n := j) tn.data)
    have h0 := CrashR.start (f := f) (n := j) O
    rw [← hvis] at h0
    obtain ⟨hs, H, e, l, hE⟩ := treeFromBfs_panic (drp := fun s => dropIters ownSrc s.1) hF h0 (by
      have := congrArg List.length hvis
      rw [List.length_mapIdx, length_visits, length_visits] at this
      simp at this p1
      omega)
    rw [left_eq A p2] at hE
    exact ⟨hs, H, by simp only [rebuildTreeC, Trees.M.bind_apply, e1, Res.bind_ok, e], l, hE⟩

theorem rebuildForestC_sim (M : MInv m K) (A : Abs m K S) {x : Var} {r : Addr} {ts : List (RTree α)} (hx : m.env x = some (.forest r))
    (hv : S.vars x = some (.forest ts)) (hd : HDen m.heap K (.forest r) (.forest ts)) (f : Nat → α → Option α) :
    match firstPanic f ts with
    | none => ∃ a h', rebuildForestC f r m.heap = .ok a h' ∧
        Sim (m.retVar h' (m.setEnv x none) (.forest a)) (.ok ((S.set x none).bind (.forest (updLevelL (orSame f) ts))) (.var S.fresh))
    | some n => ∃ hs H, rebuildForestC f r m.heap = .err .panic H ∧ Leak hs H ∧
        Left (m.setEnv x none) m.fresh ((S.set x none).drop (unwound n ts)) hs := by
  obtain ⟨l1, l2⟩ := own_low M A x
  have hFull := ownFull (L := S.dropped) l1 l2
  rw [store_eq_set A] at hFull
  have O := own_forest M A hx hv
  obtain ⟨hlive, hsz⟩ := var_size M hx hd
  simp only [Handle.addr, Val.kids] at hsz hlive
  have hvis := visits_updLevelL (orSame f) ts
  have hrun : ∀ q, forestFromBfs (mapNextC f (splittedNext ownSrc) ownUnwind) (fun s => dropIters ownSrc s.1) ([r], 0)
      ⟨(updLevelL (orSame f) ts).length, countL (updLevelL (orSame f) ts)⟩ m.heap = q → rebuildForestC f r m.heap = q := by
    intro q e
    rw [countL_updLevelL, updLevelL_length] at e
    simp only [rebuildForestC, Trees.M.bind_apply, getSize_ok hlive, Res.bind_ok, hsz, e]
  cases hp : firstPanic f ts with
  | none =>
    have hF := crash_full ownSpec framed_ownSrc framed_ownUnwind hFull ownI_st ownI_bump hp
    have h0 := CrashR.start (f := f) (n := countL ts) O
    rw [← hvis, List.take_of_length_le (by rw [hvis, List.length_mapIdx, length_visits]; exact Nat.le_refl _)] at h0
    obtain ⟨a, h', e2, B⟩ := forestFromBfs_ok hF (s := ([r], 0)) (ts := updLevelL (orSame f) ts) h0
    exact ⟨a, h', hrun _ e2, B.sim (hd := .forest a) rfl (fun w => .inr ⟨a, rfl, rfl, rfl⟩)⟩
  | some j =>
    obtain ⟨p1, ⟨tn, p2, p3⟩, p4⟩ := firstPanic_some hp
    have hF := crash_panic ownSpec framed_ownSrc framed_ownUnwind ownI_st ownI_bump hp p2
      (ownI_unwind (L := S.dropped) l1 l2 (ts := ts) (n := j) tn.data)
    have h0 := CrashR.start (f := f) (n := j) O
    rw [← hvis] at h0
    obtain ⟨hs, H, e, l, hE⟩ := forestFromBfs_panic (drp := fun s => dropIters ownSrc s.1) hF h0 (by rw [countL_updLevelL]; exact p1)
    rw [left_eq A p2] at hE
    exact ⟨hs, H, hrun _ e, l, hE⟩

/-- Refinement with leaks. -/
def CSim : Outcome (Machine α) α → Outcome (Store α) α → Prop
  | .ok m o, .ok S o' => o = o' ∧ ∃ X, Leak X m.heap ∧ Left m.env m.fresh S X
  | .panic m, .panic S => ∃ X, Leak X m.heap ∧ Left m.env m.fresh S X
  | .rejected, .rejected => True
  | _, _ => False

theorem Sim.csim {r : Outcome (Machine α) α} {q : Outcome (Store α) α} (h : Sim r q) : CSim r q := by
  cases r <;> cases q <;> simp only [Sim] at h <;> simp only [CSim]
  · exact ⟨h.1, _, .refl _, h.2⟩
  · exact ⟨_, .refl _, h⟩

theorem rel_onKids {R : Outcome (Machine α) α → Outcome (Store α) α → Prop} (hrej : R .rejected .rejected)
    (hstay : R (.ok m .absent) (.ok S .absent)) (M : MInv m K) (A : Abs m K S) {x : Var} {p : Path}
    {k : Handle → Addr → Outcome (Machine α) α} {k' : Val α → List (RTree α) → Outcome (Store α) α}
    (H : ∀ hd n v us, hd.isIter = false → At m K S x p hd n v us → R (k hd n) (k' v us)) :
    R (m.onKids x p k) (S.onKids x p k') := by
  have hA := A.vars x
  cases hx : m.env x with
  | none => rw [hx] at hA; simp at hA; simp [Machine.onKids, Store.onKids, hx, hA, hrej]
  | some hd =>
    rw [hx] at hA
    obtain ⟨v, e, hv⟩ := hA
    have ho := M.hnd x hd hx
    simp only [Machine.onKids, Store.onKids, hx, e]
    rw [← hv.isIter]
    cases hit : hd.isIter with
    | true => simp [hrej]
    | false =>
      simp only [Bool.false_eq_true, if_false, Machine.run, locate_ok M.inv ho.used]
      have hr := resolve_kidsAt (p := p) hv.kids
      cases hn : resolve K hd.addr p with
      | none =>
        rw [hn] at hr
        simp only at hr
        simp only [hr]
        exact hstay
      | some n =>
        rw [hn] at hr
        obtain ⟨us, h1, h2⟩ := hr
        simp only [h1]
        exact H hd n v us hit ⟨hx, e, hv, hn, h1, h2⟩


theorem rel_onNode {R : Outcome (Machine α) α → Outcome (Store α) α → Prop} (hrej : R .rejected .rejected)
    (hstay : R (.ok m .absent) (.ok S .absent)) (M : MInv m K) (A : Abs m K S) {x : Var} {l : Loc}
    {k : Addr → Outcome (Machine α) α} {r' : Val α → RTree α → Outcome (Store α) α}
    {k' : Val α → Path → Nat → List (RTree α) → RTree α → Outcome (Store α) α}
    (H1 : ∀ r t, m.env x = some (.tree r) → S.vars x = some (.tree t) → Den m.heap.val K r t → HOK m.heap (.tree r) →
      R (k r) (r' (.tree t) t))
    (H2 : ∀ q i hd u n v us t, AtC m K S x q i hd u n v us t → R (k n) (k' v q i us t)) :
    R (m.onNode x l k) (S.onNode x l r' k') := by
  have hA := A.vars x
  cases hx : m.env x with
  | none => rw [hx] at hA; simp at hA; simp [Machine.onNode, Store.onNode, hx, hA, hrej]
  | some hd =>
    rw [hx] at hA
    obtain ⟨v, e, hv⟩ := hA
    have ho := M.hnd x hd hx
    simp only [Machine.onNode, Store.onNode, hx, e]
    rw [← hv.isIter]
    cases hit : hd.isIter with
    | true => simp [hrej]
    | false =>
      simp only [Bool.false_eq_true, if_false]
      cases l with
      | root =>
        cases hd with
        | tree r => cases v with
          | tree t => exact H1 r t hx e hv ho
          | forest _ => exact hv.elim
          | iter _ => exact hv.elim
        | forest r => cases v with
          | tree t => exact hv.elim
          | forest _ => exact hrej
          | iter _ => exact hv.elim
        | iter r => simp [Handle.isIter] at hit
      | child q i =>
        simp only [Machine.run, locate_ok M.inv ho.used]
        rw [resolve_append]
        have hr := resolve_kidsAt (p := q) hv.kids
        cases hn : resolve K hd.addr q with
        | none =>
          rw [hn] at hr
          simp only at hr
          simp only [hr, Option.bind_none]
          exact hstay
        | some u =>
          rw [hn] at hr
          obtain ⟨us, h1, h2⟩ := hr
          simp only [h1, Option.bind_some, resolve]
          rcases h2.get i with ⟨g1, g2⟩ | ⟨c, t, g1, g2, g3⟩
          · simp only [g1, g2]; exact hstay
          · simp only [g1, g2]
            exact H2 q i hd u c v us t ⟨⟨hx, e, hv, hn, h1, h2⟩, g1, g2, g3⟩

/-! ### Iterators of the client's own -/

theorem visitList_eq (ts : List (RTree α)) : visitList ts = visits ts := by
  rw [visitList, visits, levelOrder_eq]
  refine List.map_congr_left fun t _ => ?_
  cases t
  simp [RTree.visit, szOf, count]

theorem framed_dropVisits : ∀ vs : List (α × Size), Framed (dropVisits vs)
  | [] => .pure _
  | v :: vs => (framed_logDrop _).bind fun _ => framed_dropVisits vs
theorem framed_listNext (s : List (α × Size) × Option Nat) : Framed (listNext s) := by
  match s with
  | ([], c) => exact .pure _
  | (v :: vs, none) => exact .pure _
  | (v :: vs, some 0) => exact (framed_dropVisits _).bind fun _ => .throw _
  | (v :: vs, some (k+1)) => exact .pure _

theorem dropVisits_ok {env : Var → Option Handle} {fr : Nat} : ∀ (vs : List (α × Size)) {S : Store α} {h : Heap α}, Left env fr S h →
    ∃ h', dropVisits vs h = .ok () h' ∧ Left env fr (S.drop (vs.map Prod.fst)) h'
  | [], S, h, hl => ⟨h, rfl, by simpa [Store.drop] using hl⟩
  | v :: vs, S, h, hl => by
    obtain ⟨K, hM, hA⟩ := hl
    obtain ⟨hM', hA'⟩ := mok_log ⟨hM, hA⟩ v.1
    obtain ⟨h', e, hl'⟩ := dropVisits_ok vs (S := S.drop [v.1]) ⟨K, hM', hA'⟩
    refine ⟨h', ?_, by simpa [Store.drop] using hl'⟩
    simp only [dropVisits, Trees.M.bind_apply, logDrop, Res.bind_ok]
    exact e

/-- The client's iterator, when it does not panic. -/
def ListR (env : Var → Option Handle) (fr : Nat) (S : Store α) (s : List (α × Size) × Option Nat) (h : Heap α) (xs : List (α × Size)) : Prop :=
  Left env fr S h ∧ s.1 = xs ∧ ∀ k, s.2 = some k → s.1.length ≤ k

theorem list_full (env : Var → Option Handle) (fr : Nat) (S : Store α) :
    SrcFull listNext (fun s => dropVisits s.1) (ListR env fr S) (Left env fr S) := by
  refine ⟨⟨framed_listNext, ?_, ?_⟩, ?_, ?_, fun s => framed_dropVisits _, ?_⟩
  · rintro ⟨s, c⟩ h x xs ⟨hl, rfl, hc⟩
    cases c with
    | none => exact ⟨_, h, rfl, hl, rfl, by simp⟩
    | some k =>
      have := hc k rfl
      cases k with
      | zero => simp at this
      | succ k => exact ⟨_, h, rfl, hl, rfl, by intro j hj; cases hj; simpa using this⟩
  · rintro ⟨s, c⟩ h ⟨hl, rfl, hc⟩
    exact ⟨_, h, rfl, hl, rfl, hc⟩
  · rintro s h xs ⟨⟨K, MI, -⟩, -⟩; exact MI.st
  · rintro s h xs n ⟨⟨K, MI, A⟩, r⟩; exact ⟨⟨K, minv_bump MI n, abs_bump A n⟩, r⟩
  · rintro ⟨s, c⟩ h ⟨hl, rfl, hc⟩
    exact ⟨h, rfl, hl⟩

/-- The client's iterator, when it is going to panic with `rest` left. -/
def ListP (env : Var → Option Handle) (fr : Nat) (S : Store α) (rest : List (α × Size)) (s : List (α × Size) × Option Nat) (h : Heap α)
    (xs : List (α × Size)) : Prop :=
  Left env fr S h ∧ s.1 = xs ++ rest ∧ s.2 = some xs.length

theorem list_panic (env : Var → Option Handle) (fr : Nat) (S : Store α) {rest : List (α × Size)} (hne : rest ≠ []) :
    SrcPanic listNext (ListP env fr S rest) (Left env fr (S.drop (rest.map Prod.fst))) := by
  refine ⟨framed_listNext, ?_, ?_, ?_, ?_⟩
  · rintro ⟨s, c⟩ h x xs ⟨hl, rfl, rfl⟩
    exact ⟨_, h, rfl, hl, rfl, rfl⟩
  · rintro ⟨s, c⟩ h ⟨hl, rfl, rfl⟩
    obtain ⟨v, vs, rfl⟩ := List.exists_cons_of_ne_nil hne
    obtain ⟨h', e, hl'⟩ := dropVisits_ok (v :: vs) hl
    refine ⟨h', hl', fun P Q F A => ?_⟩
    obtain ⟨A', e'⟩ := framed_dropVisits (v :: vs) P Q F _ _ _ A e
    refine ⟨A', ?_⟩
    simp only [List.nil_append, List.length_nil, listNext, Trees.M.bind_apply, e', Res.bind_ok]
    rfl
  · rintro s h xs ⟨⟨K, MI, -⟩, -⟩; exact MI.st
  · rintro s h xs n ⟨⟨K, MI, A⟩, r⟩; exact ⟨⟨K, minv_bump MI n, abs_bump A n⟩, r⟩

theorem unvisited_none {j : Option Nat} {ts : List (RTree α)} (h : unvisited j ts = none) : ∀ k, j = some k → (visits ts).length ≤ k := by
  rintro k rfl
  rw [length_visits]
  by_contra hlt
  simp [unvisited] at h
  omega

theorem unvisited_some {j : Option Nat} {ts : List (RTree α)} {ds : List α} (h : unvisited j ts = some ds) :
    ∃ k, j = some k ∧ k < countL ts ∧ ds = ((visits ts).drop k).map Prod.fst ∧ (visits ts).drop k ≠ [] := by
  cases j with
  | none => simp [unvisited] at h
  | some k =>
    simp only [unvisited, Option.bind_some] at h
    split at h
    · rename_i hk
      refine ⟨k, rfl, hk, ?_, ?_⟩
      · rw [← Option.some.inj h, visits, levelOrder_eq, ← List.map_drop, List.map_map]; rfl
      · intro e
        have := congrArg List.length e
        rw [List.length_drop, length_visits] at this
        simp at this; omega
    · simp at h

theorem ofVisits_sim (M : MInv m K) (A : Abs m K S) (t : RTree α) (j : Option Nat) :
    match unvisited j [t] with
    | none => ∃ a h', treeOfVisits (visitList [t]) j m.heap = .ok a h' ∧ Sim (m.retVar h' m.env (.tree a)) (.ok (S.bind (.tree t)) (.var S.fresh))
    | some ds => ∃ hs H, treeOfVisits (visitList [t]) j m.heap = .err .panic H ∧ Leak hs H ∧ Left m.env m.fresh (S.drop ds) hs := by
  rw [visitList_eq]
  cases hp : unvisited j [t] with
  | none =>
    obtain ⟨a, h', e, B⟩ := treeFromBfs_ok (list_full m.env m.fresh S) (s := (visits [t], j)) (h := m.heap) (t := t)
      ⟨⟨K, M, A⟩, rfl, unvisited_none hp⟩
    refine ⟨a, h', e, ?_⟩
    refine B.sim (hd := .tree a) rfl (fun w => .inl ⟨a, _, _, rfl, rfl, ?_, rfl⟩)
    rw [eta]
  | some ds =>
    obtain ⟨k, rfl, hk, rfl, hne⟩ := unvisited_some hp
    exact treeFromBfs_panic (list_panic m.env m.fresh S hne) (j := k) (t := t) ⟨⟨K, M, A⟩, (List.take_append_drop k _).symm, by
      simp [length_visits]; simp at hk; omega⟩ (by simpa using hk)

theorem ofVisitsForest_sim (M : MInv m K) (A : Abs m K S) (ts : List (RTree α)) (j : Option Nat) :
    match unvisited j ts with
    | none => ∃ a h', forestOfVisits (visitList ts) ⟨ts.length, countL ts⟩ j m.heap = .ok a h' ∧
        Sim (m.retVar h' m.env (.forest a)) (.ok (S.bind (.forest ts)) (.var S.fresh))
    | some ds => ∃ hs H, forestOfVisits (visitList ts) ⟨ts.length, countL ts⟩ j m.heap = .err .panic H ∧ Leak hs H ∧ Left m.env m.fresh (S.drop ds) hs := by
  rw [visitList_eq]
  cases hp : unvisited j ts with
  | none =>
    obtain ⟨a, h', e, B⟩ := forestFromBfs_ok (list_full m.env m.fresh S) (s := (visits ts, j)) (h := m.heap) (ts := ts)
      ⟨⟨K, M, A⟩, rfl, unvisited_none hp⟩
    exact ⟨a, h', e, B.sim (hd := .forest a) rfl (fun w => .inr ⟨a, rfl, rfl, rfl⟩)⟩
  | some ds =>
    obtain ⟨k, rfl, hk, rfl, hne⟩ := unvisited_some hp
    exact forestFromBfs_panic (list_panic m.env m.fresh S hne) (j := k) (ts := ts) ⟨⟨K, M, A⟩, (List.take_append_drop k _).symm, by
      simp [length_visits]; omega⟩ hk

theorem csim_stay (M : MInv m K) (A : Abs m K S) : CSim (.ok m .absent) (.ok S .absent) := ⟨rfl, _, .refl _, K, M, A⟩

theorem store_drop_nil (S : Store α) : S.drop [] = S := by simp [Store.drop]

theorem forget_csim (M : MInv m K) (A : Abs m K S) {x : Var} : CSim (cstep m (.forget x)) (specCrash S (.forget x)) := by
  simp only [cstep, specCrash]
  have hA := A.vars x
  cases hx : m.env x with
  | none => rw [hx] at hA; simp only at hA; simp [hA, CSim]
  | some hd =>
    rw [hx] at hA
    obtain ⟨v, e, hv⟩ := hA
    rw [e]
    obtain ⟨X, K'', l, D⟩ := (Part.refl M.inv M.st (M.hnd x hd hx).root).forget
    have := minv_drop M A hx D
    rw [store_drop_nil] at this
    exact ⟨rfl, X, l, K'', this⟩

theorem HDen.postRoot (M : MInv m K) {x : Var} {hd : Handle} {v : Val α} (hx : m.env x = some hd) (hv : HDen m.heap K hd v) :
    postL v.kids ++ (m.heap.val hd.addr).toList = v.post := by
  have hk := (M.hnd x hd hx).kind
  cases hd <;> cases v <;> simp only [HDen] at hv
  · rename_i r t
    cases t with
    | node d ts =>
      simp only [Den_node] at hv
      simp [Handle.addr, hv.1, Val.kids, Val.post, RTree.post]
  · simp only [HKind] at hk
    simp [Handle.addr, hk, Val.kids, Val.post]
  · simp only [HKind] at hk
    simp [Handle.addr, hk, Val.kids, Val.post]

theorem dropPanic_csim (M : MInv m K) (A : Abs m K S) {x : Var} (j : Nat) : CSim (cstep m (.dropPanic x j)) (specCrash S (.dropPanic x j)) := by
  simp only [cstep, specCrash]
  have hA := A.vars x
  cases hx : m.env x with
  | none => rw [hx] at hA; simp only at hA; simp [hA, CSim]
  | some hd =>
    rw [hx] at hA
    obtain ⟨v, e, hv⟩ := hA
    rw [e]
    have ho := M.hnd x hd hx
    have hp := HDen.postRoot M hx hv
    have key : ∀ c : Trees.M α Unit,
        (j < v.post.length ∧ (∃ h' K', c m.heap = .err .panic h' ∧ Part m.heap K h' K' (Reach K hd.addr) (v.postUntil j) (fun _ => 0)) ∨
          ¬ j < v.post.length ∧ ∃ h' K', c m.heap = .ok () h' ∧ Dropped m.heap K hd.addr v.post h' K' (fun _ => 0)) →
        CSim (m.run (m.setEnv x none) c fun _ h => m.ret h (m.setEnv x none) .unit)
          (if j < v.post.length then .panic ((S.set x none).drop (v.postUntil j)) else .ok ((S.set x none).drop v.post) .unit) := by
      rintro c (⟨hj, h', K', e', P⟩ | ⟨hj, h', K', e', D⟩)
      · rw [if_pos hj]
        obtain ⟨X, K'', l, D⟩ := P.forget
        simp only [Machine.run, e']
        exact ⟨X, l, K'', minv_drop M A hx D⟩
      · rw [if_neg hj]
        simp only [Machine.run, e']
        exact ⟨rfl, _, .refl _, K', minv_drop M A hx D⟩
    have root := dropRootP_ok (m.heap.log.length + j) M.inv M.st ho.used ho.root hv.kids
    rw [hp] at root
    simp only [DropP, Nat.add_sub_cancel_left] at root
    cases hd with
    | tree r =>
      cases v <;> simp only [HDen] at hv
      refine key _ ?_
      rcases root with ⟨-, n2, h', K', e', P⟩ | ⟨n1, h', K', e', D⟩
      · exact .inl ⟨by omega, h', K', e', P⟩
      · exact .inr ⟨by omega, h', K', e', D⟩
    | forest r =>
      cases v <;> simp only [HDen] at hv
      refine key _ ?_
      rcases root with ⟨-, n2, h', K', e', P⟩ | ⟨n1, h', K', e', D⟩
      · exact .inl ⟨by omega, h', K', e', P⟩
      · exact .inr ⟨by omega, h', K', e', D⟩
    | iter r =>
      cases v <;> simp only [HDen] at hv
      refine key _ ?_
      have root := intoIterDropP_ok (m.heap.log.length + j) M.inv M.st ho.used ho.root ho.kind hv
      simp only [Nat.add_sub_cancel_left] at root
      rcases root with ⟨-, n2, h', K', e', P⟩ | ⟨n1, h', K', e', D⟩
      · exact .inl ⟨by simp only [Val.post]; omega, h', K', e', P⟩
      · exact .inr ⟨by simp only [Val.post]; omega, h', K', e', D⟩

/-- Every call refines its specification, up to leaked memory. -/
theorem cstep_refines (M : MInv m K) (A : Abs m K S) (op : COp α) : CSim (cstep m op) (specCrash S op) := by
  have stay := csim_stay M A
  cases op with
  | call op => exact (step_refines M A op).csim
  | mapBfs x l f =>
    have key : ∀ n t, m.heap.Used n → Den m.heap.val K n t → CSim (m.run m.env (mapBfsC f n) fun a h => m.retVar h m.env (.tree a))
        (match firstPanic f [t] with
          | none => .ok (S.bind (.tree (updLevel (orSame f) t))) (.var S.fresh)
          | some _ => .panic S) := by
      intro n t hn hd
      have := mapBfsC_sim M A hn hd f
      cases hp : firstPanic f [t] with
      | none =>
        rw [hp] at this
        obtain ⟨a, h', e, s⟩ := this
        simp only [Machine.run, e]; exact s.csim
      | some j =>
        rw [hp] at this
        obtain ⟨hs, H, e, l, hl⟩ := this
        simp only [Machine.run, e]; exact ⟨hs, l, hl⟩
    refine rel_onNode trivial stay M A ?_ ?_
    · intro r t hx hv hden ho; exact key r t ho.used hden
    · intro q i hd u n v us t c; exact key n t (c.usedN M) c.den
  | mapBfsForest x p f =>
    refine rel_onKids trivial stay M A (fun _ n _ us _ a => ?_)
    have := mapBfsForestC_sim M A (a.used M) a.kden f
    cases hp : firstPanic f us with
    | none =>
      rw [hp] at this
      obtain ⟨a, h', e, s⟩ := this
      simp only [Machine.run, e]; exact s.csim
    | some j =>
      rw [hp] at this
      obtain ⟨hs, H, e, l, hl⟩ := this
      simp only [Machine.run, e]; exact ⟨hs, l, hl⟩
  | rebuild x f =>
    simp only [cstep, specCrash]
    have hA := A.vars x
    cases hx : m.env x with
    | none => rw [hx] at hA; simp only at hA; simp [hA, CSim]
    | some hd =>
      rw [hx] at hA
      obtain ⟨v, e, hv⟩ := hA
      rw [e]
      have hv0 := hv
      cases hd <;> cases v <;> simp only [HDen] at hv
      · rename_i r t
        have := rebuildTreeC_sim M A hx e f
        simp only
        cases hp : firstPanic f [t] with
        | none =>
          rw [hp] at this
          obtain ⟨a, h', e, s⟩ := this
          simp only [Machine.run, e]; exact s.csim
        | some j =>
          rw [hp] at this
          obtain ⟨hs, H, e, l, hl⟩ := this
          simp only [Machine.run, e]; exact ⟨hs, l, hl⟩
      · rename_i r ts
        have := rebuildForestC_sim M A hx e hv0 f
        simp only
        cases hp : firstPanic f ts with
        | none =>
          rw [hp] at this
          obtain ⟨a, h', e, s⟩ := this
          simp only [Machine.run, e]; exact s.csim
        | some j =>
          rw [hp] at this
          obtain ⟨hs, H, e, l, hl⟩ := this
          simp only [Machine.run, e]; exact ⟨hs, l, hl⟩
      · trivial
  | ofVisits t j =>
    simp only [cstep, specCrash]
    have := ofVisits_sim M A t j
    cases hp : unvisited j [t] with
    | none =>
      rw [hp] at this
      obtain ⟨a, h', e, s⟩ := this
      simp only [Machine.run, e]; exact s.csim
    | some ds =>
      rw [hp] at this
      obtain ⟨hs, H, e, l, hl⟩ := this
      simp only [Machine.run, e]; exact ⟨hs, l, hl⟩
  | ofVisitsForest ts j =>
    simp only [cstep, specCrash]
    have := ofVisitsForest_sim M A ts j
    cases hp : unvisited j ts with
    | none =>
      rw [hp] at this
      obtain ⟨a, h', e, s⟩ := this
      simp only [Machine.run, e]; exact s.csim
    | some ds =>
      rw [hp] at this
      obtain ⟨hs, H, e, l, hl⟩ := this
      simp only [Machine.run, e]; exact ⟨hs, l, hl⟩
  | forget x => exact forget_csim M A
  | dropPanic x j => exact dropPanic_csim M A j
  | setDataPanic x l d =>
    simp only [cstep, specCrash]
    have h1 := step_refines M A (.setData x l d)
    cases e1 : step m (.setData x l d) with
    | ok m' o =>
      cases e2 : specStep S (.setData x l d) with
      | ok S' o' =>
        rw [e1, e2] at h1
        obtain ⟨rfl, K', M', A'⟩ := h1
        cases o <;> first | exact ⟨_, .refl _, K', M', A'⟩ | exact ⟨rfl, _, .refl _, K', M', A'⟩
      | panic S' => rw [e1, e2] at h1; simp only [Sim] at h1
      | rejected => rw [e1, e2] at h1; simp only [Sim] at h1
      | bad => rw [e1, e2] at h1; simp only [Sim] at h1
    | panic m' => rw [e1] at h1; cases e2 : specStep S (.setData x l d) <;> rw [e2] at h1 <;> first | exact h1.csim | simp only [Sim] at h1
    | rejected => rw [e1] at h1; cases e2 : specStep S (.setData x l d) <;> rw [e2] at h1 <;> first | exact h1.csim | simp only [Sim] at h1
    | bad => rw [e1] at h1; cases e2 : specStep S (.setData x l d) <;> rw [e2] at h1 <;> first | exact h1.csim | simp only [Sim] at h1

end

/-- The invariant of programs that survive panics. -/
def CInv (m : Machine α) (S : Store α) : Prop := ∃ X, Leak X m.heap ∧ Left m.env m.fresh S X

theorem CInv.step {m : Machine α} {S : Store α} (h : CInv m S) (op : COp α) : CSim (cstep m op) (specCrash S op) := by
  obtain ⟨X, l, K, M, A⟩ := h
  have h1 := cstep_refines M A op
  have h2 := cstep_leak l (env := m.env) (fr := m.fresh) op
  cases e1 : cstep (⟨X, m.env, m.fresh⟩ : Machine α) op with
  | ok m' o =>
    rw [e1] at h1 h2
    obtain ⟨H, e2, l2⟩ := h2
    cases e3 : specCrash S op <;> rw [e3] at h1 <;> simp only [CSim] at h1
    obtain ⟨rfl, X', l3, hl⟩ := h1
    rw [e2]
    exact ⟨rfl, X', l3.trans l2, hl⟩
  | panic m' =>
    rw [e1] at h1 h2
    obtain ⟨H, e2, l2⟩ := h2
    cases e3 : specCrash S op <;> rw [e3] at h1 <;> simp only [CSim] at h1
    obtain ⟨X', l3, hl⟩ := h1
    rw [e2]
    exact ⟨X', l3.trans l2, hl⟩
  | rejected =>
    rw [e1] at h1 h2
    cases e3 : specCrash S op <;> rw [e3] at h1 <;> simp only [CSim] at h1
    rw [h2]; trivial
  | bad => rw [e1] at h1; cases e3 : specCrash S op <;> rw [e3] at h1 <;> simp only [CSim] at h1

theorem ro_collect : ∀ (n : Nat) (it : RawIter), ReadOnly (it.collect n : M α _) := by
  intro n
  induction n with
  | zero =>
    intro it
    unfold RawIter.collect
    refine (ro_next it).bind fun _ => ?_
    split
    · exact .throw _
    · exact .pure _
  | succ n ih =>
    intro it
    unfold RawIter.collect
    refine (ro_next it).bind fun _ => ?_
    split
    · exact (ih _).bind fun _ => .pure _
    · exact .pure _

theorem ro_children (a : Addr) : ReadOnly (children a : M α _) := (ro_iter a).bind fun _ => ro_collect _ _

theorem ro_readMany {f : Addr → M α β} (hf : ∀ a, ReadOnly (f a)) : ∀ cs, ReadOnly (readMany f cs) := by
  intro cs
  induction cs with
  | nil => exact .pure _
  | cons c cs ih => exact (hf c).bind fun _ => ih.bind fun _ => .pure _

theorem ro_dataRef (a : Addr) : ReadOnly (dataRef a : M α _) := by
  unfold dataRef getData
  refine ReadOnly.rd.bind fun _ => ?_
  split
  · exact .pure _
  · exact .throw _

theorem ro_readTree : ∀ (n : Nat) (a : Addr), ReadOnly (readTree n a : M α _) := by
  intro n
  induction n with
  | zero => intro a; exact .throw _
  | succ n ih =>
    intro a
    exact (ro_dataRef a).bind fun _ => (ro_children a).bind fun _ => (ro_readMany ih _).bind fun _ => .pure _

theorem ro_readHandle_leak (hd : Handle) : ReadOnly (readHandle hd : M α _) := by
  have hk : ∀ a, ReadOnly (readKids a : M α _) := fun a h =>
    ((ro_children a).bind fun cs => ro_readMany (ro_readTree _) cs) h
  cases hd with
  | tree r => exact ReadOnly.bind (fun h => ro_readTree _ r h) fun _ => .pure _
  | forest r => exact (hk r).bind fun _ => .pure _
  | iter r => exact (hk r).bind fun _ => .pure _

theorem Leak.read {X H : Heap α} (l : Leak X H) {hd : Handle} {v : Val α}
    (hr : readHandle hd X = .ok v X) : readHandle hd H = .ok v H := by
  induction l with
  | refl => exact hr
  | @more ρ X Y H a r _ ih =>
    refine ih ?_
    have := (rob_readHandle_leak hd ρ X Y r).2
    rw [hr] at this
    obtain ⟨Y', e, r'⟩ := this (a.fin _)
    have h2 := ro_readHandle_leak hd Y
    rw [e] at h2
    rw [e]; congr 1

end Trees
