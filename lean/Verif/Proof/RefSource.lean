import Verif.Proof.Level
/-
Breadth-first iteration by reference.
-/
namespace Trees
set_option linter.unusedSimpArgs false
variable {α : Type}
open RTree

theorem minv_bump {h : Heap α} {env fresh K} (MI : MInv ⟨h, env, fresh⟩ K) (n : Nat) : MInv ⟨bumped h n, env, fresh⟩ K :=
  ⟨bumped_inv MI.inv n, bumped_sinv MI.st n, MI.kv, fun x hd hx => ⟨(MI.hnd x hd hx).used, (MI.hnd x hd hx).root, by
    have := (MI.hnd x hd hx).kind
    cases hd <;> exact this⟩, MI.dist, MI.all, MI.fr⟩

theorem abs_bump {h : Heap α} {env fresh K S} (A : Abs ⟨h, env, fresh⟩ K S) (n : Nat) : Abs ⟨bumped h n, env, fresh⟩ K S :=
  ⟨fun x => by
    have := A.vars x
    show match env x with
      | none => S.vars x = none
      | some hd => ∃ v, S.vars x = some v ∧ HDen (bumped h n) K hd v
    cases hx : env x with
    | none => simp only [hx] at this; exact this
    | some hd =>
      simp only [hx] at this
      obtain ⟨v, e, hv⟩ := this
      refine ⟨v, e, ?_⟩
      cases hd <;> cases v <;> exact hv, A.fresh, A.log⟩

/-- An iterator over nodes that denote `ts`. -/
def ItAt (val : Addr → Option δ) (h : Heap α) (K : Addr → List Addr) (it : RawIter) (ts : List (RTree δ)) : Prop :=
  ∃ cs, it.At h cs ∧ (∀ c ∈ cs, h.Used c) ∧ DenL val K cs ts

theorem ItAt.bump {δ : Type} {val : Addr → Option δ} {h : Heap α} {K it} {ts : List (RTree δ)} (a : ItAt val h K it ts) (n : Nat) :
    ItAt val (bumped h n) K it ts := a

/-- The queue of a breadth-first iteration by reference. -/
def RefI (P : Heap α → (Addr → List Addr) → Prop) (h : Heap α) (s : List RawIter) (tss : List (List (RTree α))) : Prop :=
  ∃ K, P h K ∧ List.Forall₂ (ItAt h.val h K) s tss

theorem Inv.sz_den {δ : Type} {val : Addr → Option δ} {h : Heap α} {K} (hI : Inv h K) {a : Addr} (ha : h.Used a) {ts : List (RTree δ)}
    (hd : DenL val K (K a) ts) : h.size a = ⟨ts.length, countL ts⟩ := by
  have h1 := hI.s a ha
  rw [h1, hd.length]
  congr 1
  exact hI.dsum_eq (fun c hc => hI.used_of_mem hc) hd

theorem iter_den {δ : Type} {val : Addr → Option δ} {h : Heap α} {K} (hI : Inv h K) {a : Addr} (ha : h.Used a) {ts : List (RTree δ)}
    (hd : DenL val K (K a) ts) : ∃ it, iter a h = .ok it h ∧ ItAt val h K it ts ∧ it.len = ts.length := by
  obtain ⟨it, e, hA⟩ := iter_at hI ha
  exact ⟨it, e, ⟨_, hA, fun c hc => hI.used_of_mem hc, hd⟩, by rw [hA.1, hd.length]⟩

theorem refSpec {P : Heap α → (Addr → List Addr) → Prop} (hP : ∀ h K, P h K → Inv h K) : SrcSpec refSrc (RefI P) := by
  refine ⟨?_, ?_, ?_⟩
  · rintro h s tss ⟨K, -, H⟩; exact H.length_eq
  · rintro h it rest tss ⟨K, MI, H⟩
    cases H with
    | cons h1 h2 =>
      obtain ⟨cs, a, -, d⟩ := h1
      have : cs = [] := by simpa using d
      subst this
      exact ⟨it, h, h, a.next_nil, rfl, K, MI, h2⟩
  · rintro h it rest t us tss ⟨K, MI, H⟩
    cases H with
    | cons h1 h2 =>
      obtain ⟨cs, a, hU, d⟩ := h1
      cases cs with
      | nil => simp at d
      | cons c cs =>
        rw [DenL_cons] at d
        obtain ⟨it', e1, a'⟩ := a.next_cons
        have hc := hU c (by simp)
        cases t with
        | node dd ks =>
          have d1 := d.1
          rw [Den_node] at d1
          obtain ⟨ch, e2, hch, hlen⟩ := iter_den (hP _ _ MI) hc d1.2
          have hsz := (hP _ _ MI).sz_den hc d1.2
          have e3 : dataRef c h = .ok dd h := dataRef_ok hc.1 d1.1
          refine ⟨c, it', ch, h, h, e1, ?_, ?_, K, MI, ?_⟩
          · simp only [refSrc, M.bind_apply, e3, Res.bind_ok, e2, getSize_ok hc.1, hsz, M.pure_apply]
            rfl
          · simp [refSrc, hlen]
          · refine List.rel_append (.cons ⟨cs, a', fun x hx => hU x (by simp [hx]), d.2⟩ h2) (.cons hch .nil)

theorem refDrop : ∀ (s : List RawIter) (h : Heap α), dropIters refSrc s h = .ok () h := by
  intro s
  induction s with
  | nil => intro h; rfl
  | cons it rest ih =>
    intro h
    simp only [dropIters, M.bind_apply, refSrc, M.pure_apply, Res.bind_ok]
    exact ih h

/-- The state of a machine. -/
def MOK (env : Var → Option Handle) (fresh : Nat) (S : Store α) (h : Heap α) (K : Addr → List Addr) : Prop :=
  MInv ⟨h, env, fresh⟩ K ∧ Abs ⟨h, env, fresh⟩ K S

theorem refFull (env : Var → Option Handle) (fresh : Nat) (S : Store α) :
    SrcFull (splittedNext refSrc) (dropIters refSrc) (SrcR (RefI (MOK env fresh S)))
      (fun h => ∃ K, MInv ⟨h, env, fresh⟩ K ∧ Abs ⟨h, env, fresh⟩ K S) := by
  refine ⟨(refSpec (fun h K hp => hp.1.inv)).ok framed_refSrc, ?_, ?_, framed_refSrc.dropIters, ?_⟩
  · rintro s h xs ⟨tss, ⟨K, ⟨MI, -⟩, -⟩, -⟩; exact MI.st
  · rintro s h xs n ⟨tss, ⟨K, ⟨MI, A⟩, H⟩, e⟩
    exact ⟨tss, ⟨K, ⟨minv_bump MI n, abs_bump A n⟩, H.imp fun _ _ h => h.bump n⟩, e⟩
  · rintro s h ⟨tss, ⟨K, ⟨MI, A⟩, -⟩, -⟩
    exact ⟨h, refDrop s h, K, MI, A⟩

theorem once_at {h : Heap α} {a : Addr} (ha : h.Used a) : (RawIter.once a).At h [a] :=
  ⟨rfl, fun _ => rfl, fun c hc => by simp at hc; subst hc; exact ha.1, h.prev a, h.next a, by simp [Links]⟩

section
variable {m : Machine α} {K : Addr → List Addr} {S : Store α}

/-- `Tree::from(node.bfs().map(f))`. -/
theorem mapBfs_sim (M : MInv m K) (A : Abs m K S) {n : Addr} {t : RTree α} (hn : m.heap.Used n) (hd : Den m.heap.val K n t) (f : Nat → α → α) :
    ∃ a h', mapBfs f n m.heap = .ok a h' ∧
      Sim (m.retVar h' m.env (.tree a)) (.ok (S.bind (.tree (updLevel f t))) (.var S.fresh)) ∧
      InBlock h' a (countL (updLevel f t).kids + 1) := by
  have hF := (refFull m.env m.fresh S).map f
  have hs : SrcR (RefI (MOK m.env m.fresh S)) (bfsStart n) m.heap (visits [t]) :=
    ⟨[[t]], ⟨K, ⟨M, A⟩, .cons ⟨[n], once_at hn, by simpa using hn, by simpa using hd⟩ .nil⟩, by simp⟩
  have hv := visits_updLevel f t
  obtain ⟨a, h', e, B⟩ := treeFromBfs_ok hF (s := (bfsStart n, 0)) (t := updLevel f t) ⟨_, hs, by simpa using hv⟩
  refine ⟨a, h', e, ?_, B.inBlock (fun h ⟨K, MI, _⟩ => ⟨K, MI.inv⟩)⟩
  refine B.sim (hd := .tree a) rfl (fun w => .inl ⟨a, _, _, rfl, rfl, ?_, rfl⟩)
  rw [eta]

/-- `Forest::from(node.bfs_children().map(f))`. -/
theorem mapBfsForest_sim (M : MInv m K) (A : Abs m K S) {n : Addr} {ts : List (RTree α)} (hn : m.heap.Used n)
    (hd : DenL m.heap.val K (K n) ts) (f : Nat → α → α) :
    ∃ a h', mapBfsForest f n m.heap = .ok a h' ∧
      Sim (m.retVar h' m.env (.forest a)) (.ok (S.bind (.forest (updLevelL f ts))) (.var S.fresh)) ∧
      InBlock h' a (countL (updLevelL f ts) + 1) := by
  have hF := (refFull m.env m.fresh S).map f
  obtain ⟨it, e0, hit, -⟩ := iter_den M.inv hn hd
  have hs : SrcR (RefI (MOK m.env m.fresh S)) [it] m.heap (visits ts) :=
    ⟨[ts], ⟨K, ⟨M, A⟩, .cons hit .nil⟩, by simp⟩
  have hsz := M.inv.sz_den hn hd
  obtain ⟨a, h', e, B⟩ := forestFromBfs_ok hF (s := ([it], 0)) (ts := updLevelL f ts) ⟨_, hs, by simpa using visits_updLevelL f ts⟩
  refine ⟨a, h', ?_, ?_, B.inBlock (fun h ⟨K, MI, _⟩ => ⟨K, MI.inv⟩)⟩
  · simp only [mapBfsForest, bfsChildrenStart, Trees.M.bind_apply, e0, Res.bind_ok, Trees.M.pure_apply, getSize_ok hn.1, hsz]
    rw [countL_updLevelL, updLevelL_length] at e
    exact e
  · exact B.sim (hd := .forest a) rfl (fun w => .inr ⟨a, rfl, rfl, rfl⟩)

/-- `k` calls of `next()` on an iteration by reference. -/
theorem refDrive_ok (M : MInv m K) {s : List RawIter} {ts : List (RTree α)} (hs : List.Forall₂ (ItAt m.heap.val m.heap K) s [ts]) (k : Nat) :
    ∃ s', driveVisits (splittedNext refSrc) k s m.heap = .ok ((List.range k).map (fun i => (visits ts)[i]?), s') m.heap := by
  have hsp := refSpec (P := fun h K' => h = m.heap ∧ K' = K) (fun h K' e => by rw [e.1, e.2]; exact M.inv)
  obtain ⟨h', s', tss', e, ⟨K', ⟨rfl, -⟩, -⟩, -⟩ := hsp.drive k s m.heap [ts] ts ⟨K, ⟨rfl, rfl⟩, hs⟩ (by simp)
  exact ⟨s', e⟩
end

end Trees
