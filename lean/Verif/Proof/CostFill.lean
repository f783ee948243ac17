import Verif.Proof.CostDrop
import Verif.Proof.BfsOps
/-
The work of `Tree::from(bfs)` and `Forest::from(bfs)`.
-/
namespace Trees
namespace Fine
open RTree
set_option linter.unusedSimpArgs false
set_option linter.unusedVariables false
variable {α β γ δ κ σ ι : Type}

/-- Running `p` is running `c`, unless the allocator breaks its contract. -/
def Upto (p : Prog α β) (c : M α β) : Prop := ∀ h, p.run .fresh h = c h ∨ ∃ h', p.run .fresh h = .err .alloc h'

theorem Imp.upto {p : Prog α β} {c : M α β} (hi : Imp .fresh p c) : Upto p c := fun h => .inl (hi h)

theorem Upto.bind {p : Prog α β} {c : M α β} {f : β → Prog α γ} {g : β → M α γ} (h1 : Upto p c) (h2 : ∀ b, Upto (f b) (g b)) :
    Upto (p >>= f) (c >>= g) := by
  intro h
  rw [bind_eq, run_bind, M.bind_apply]
  rcases h1 h with e | ⟨h', e⟩
  · rw [e]
    cases c h with
    | ok b h' => exact h2 b h'
    | err x h' => exact .inl rfl
  · rw [e]; exact .inr ⟨h', rfl⟩

theorem Upto.ite {P : Prop} [Decidable P] {p q : Prog α β} {c d : M α β} (h1 : P → Upto p c) (h2 : ¬ P → Upto q d) :
    Upto (if P then p else q) (if P then c else d) := by
  by_cases hP : P <;> simp only [hP, if_true, if_false] <;> [exact h1 hP; exact h2 hP]

theorem Upto.pure (b : β) : Upto (Pure.pure b : Prog α β) (Pure.pure b) := (Imp.pure b).upto
theorem Upto.throw (e : Err) : Upto (throw e : Prog α β) (M.throw e) := (Imp.throw e).upto

theorem upto_makeNode (d : Data α) : Upto (makeNode d) (Trees.makeNode d) := by
  intro h
  rw [imp_makeNode d h]
  simp only [makeNodeA]
  split
  · exact .inl rfl
  · exact .inr ⟨h, rfl⟩

theorem upto_newVec (n : Nat) : Upto (newVec n : Prog α _) (Trees.newVec (n + 1)) := by
  intro h
  rw [imp_newVec n h]
  simp only [newVecA]
  split
  · exact .inl rfl
  · exact .inr ⟨h, rfl⟩

theorem upto_abandon (a : Addr) : Upto (abandon a : Prog α _) (Trees.abandon a) := by
  unfold abandon Trees.abandon
  refine Upto.bind (imp_getData a).upto fun d => ?_
  cases hd : d.take with
  | none => exact Upto.throw _
  | some q =>
    obtain ⟨rest, x⟩ := q
    exact Upto.bind (imp_setData _ _).upto fun _ => Upto.bind (upto_makeNode _) fun _ => Upto.pure _

theorem upto_treeIntoIter (a : Addr) : Upto (treeIntoIter a : Prog α _) (Trees.treeIntoIter a) := by
  unfold treeIntoIter Trees.treeIntoIter
  exact Upto.bind (upto_makeNode _) fun _ => Upto.bind (imp_pushBack _ _).upto fun _ => Upto.pure _

structure SUpto (S : Src α ι κ δ) (T : Trees.Src α ι κ δ) : Prop where
  next : ∀ it, Upto (S.next it) (T.next it)
  len : ∀ it, Upto (S.len it) (T.len it)
  drop : ∀ it, Upto (S.drop it) (T.drop it)
  split : ∀ k, Upto (S.split k) (T.split k)

theorem supto_ref : SUpto (refSrc : Src α _ _ _) Trees.refSrc :=
  ⟨fun it => (simp_refSrc.next it).upto, fun it => (simp_refSrc.len it).upto, fun it => (simp_refSrc.drop it).upto, fun k => (simp_refSrc.split k).upto⟩

theorem supto_mut : SUpto (mutSrc : Src α _ _ _) Trees.mutSrc :=
  ⟨fun it => (simp_mutSrc.next it).upto, fun it => (simp_mutSrc.len it).upto, fun it => (simp_mutSrc.drop it).upto, fun k => (simp_mutSrc.split k).upto⟩

theorem supto_own : SUpto (ownSrc : Src α _ _ _) Trees.ownSrc := by
  refine ⟨fun it => (simp_ownSrc.next it).upto, fun it => (simp_ownSrc.len it).upto, fun it => (simp_ownSrc.drop it).upto, fun k => ?_⟩
  unfold ownSrc Trees.ownSrc
  refine Upto.bind (imp_getSize k).upto fun d => Upto.bind (upto_abandon k) fun q => Upto.bind (imp_intoData _).upto fun _ => Upto.pure _

theorem upto_splittedNext {S : Src α ι κ δ} {T : Trees.Src α ι κ δ} (hs : SUpto S T) : ∀ l : List ι,
    Upto (splittedNext S l) (Trees.splittedNext T l)
  | [] => Upto.pure _
  | it :: rest => by
    unfold splittedNext Trees.splittedNext
    refine Upto.bind (hs.next it) fun q => ?_
    obtain ⟨o, it'⟩ := q
    cases o with
    | none => exact Upto.bind (hs.drop it') fun _ => upto_splittedNext hs rest
    | some k => exact Upto.bind (hs.split k) fun q => Upto.bind (hs.len _) fun _ => Upto.pure _

theorem upto_dropIters {S : Src α ι κ δ} {T : Trees.Src α ι κ δ} (hs : SUpto S T) : ∀ l : List ι,
    Upto (dropIters S l) (Trees.dropIters T l)
  | [] => Upto.pure _
  | it :: rest => Upto.bind (hs.drop it) fun _ => upto_dropIters hs rest

theorem upto_mapNext (f : Nat → δ → κ) {p : σ → Prog α (Option (δ × Size) × σ)} {c : σ → M α (Option (δ × Size) × σ)}
    (h1 : ∀ s, Upto (p s) (c s)) (s : σ × Nat) : Upto (mapNext f p s) (Trees.mapNext f c s) := by
  unfold mapNext Trees.mapNext
  refine Upto.bind (h1 _) fun q => ?_
  obtain ⟨o, s'⟩ := q
  cases o <;> exact Upto.pure _

theorem upto_driveVisits {p : σ → Prog α (Option (δ × Size) × σ)} {c : σ → M α (Option (δ × Size) × σ)}
    (h1 : ∀ s, Upto (p s) (c s)) : ∀ (k : Nat) (s : σ), Upto (driveVisits p k s) (Trees.driveVisits c k s)
  | 0, s => Upto.pure _
  | k+1, s => Upto.bind (h1 s) fun q => Upto.bind (upto_driveVisits h1 k q.2) fun _ => Upto.pure _

theorem upto_fillLoop {p : σ → Prog α (Option (α × Size) × σ)} {c : σ → M α (Option (α × Size) × σ)}
    (h1 : ∀ s, Upto (p s) (c s)) (v : Nat) : ∀ (k : Nat) (s : σ) (par child r : Nat),
    Upto (fillLoop p v k s par child r) (Trees.fillLoop c v k s par child r)
  | 0, _, _, _, _ => Upto.throw _
  | k+1, s, par, child, r => by
    unfold fillLoop Trees.fillLoop
    refine Upto.bind (h1 s) fun q => ?_
    obtain ⟨o, s'⟩ := q
    cases o with
    | none => exact Upto.pure _
    | some x =>
      refine Upto.bind (imp_appendChild _ _ _ _ _).upto fun _ => Upto.ite (fun _ => Upto.throw _) fun _ => Upto.ite (fun _ => ?_) fun _ => ?_
      · exact Upto.bind (imp_fillInner _ _ _ _).upto fun _ => upto_fillLoop h1 v k _ _ _ _
      · exact upto_fillLoop h1 v k _ _ _ _

/-- The work of a sequence of two programs, when the result of the first is known. -/
theorem cost_seq {p : Prog α β} {c : M α β} (hi : Upto p c) {f : β → Prog α γ} {h h' : Heap α} {b : β} (e : c h = .ok b h') {n k : Nat}
    (h1 : cost .fresh p h ≤ n) (h2 : cost .fresh (f b) h' ≤ k) : cost .fresh (p >>= f) h ≤ n + k := by
  rw [cost_bind]
  rcases hi h with e1 | ⟨h'', e1⟩
  · rw [e1, e]; exact Nat.add_le_add h1 h2
  · rw [e1]; exact Nat.le_trans (Nat.add_zero _ ▸ h1) (Nat.le_add_right _ _)

/-- … and a bound that does not depend on it. -/
theorem cost_seqC {p : Prog α β} {f : β → Prog α γ} {h : Heap α} {n k : Nat}
    (h1 : cost .fresh p h ≤ n) (h2 : ∀ b, Cst .fresh (f b) k) : cost .fresh (p >>= f) h ≤ n + k := by
  rw [cost_bind]
  cases p.run .fresh h with
  | ok b h' => exact Nat.add_le_add h1 (h2 b h')
  | err _ _ => exact Nat.le_trans (Nat.add_zero _ ▸ h1) (Nat.le_add_right _ _)

/-- The inner loop goes on from the parent to the new parent, two accesses for each step. -/
theorem fillInner_cost {v : Nat} {c : Nat} : ∀ (k p : Nat) {h h' : Heap α} {p' r' : Nat},
    Trees.fillInner v k p c h = .ok (p', r') h' → cost .fresh (fillInner v k p c) h ≤ 2 * (p' - p) ∧ p ≤ p' := by
  intro k
  induction k with
  | zero => intro p h h' p' r' e; simp [Trees.fillInner] at e
  | succ k ih =>
    intro p h h' p' r' e
    unfold fillInner
    unfold Trees.fillInner at e
    rw [M.bind_apply] at e
    cases e1 : Trees.vecNode v (p + 1) h with
    | err x h1 => rw [e1] at e; simp at e
    | ok a h1 =>
    rw [e1, Res.bind_ok, M.bind_apply] at e
    cases e2 : Trees.degree a h1 with
    | err x h2 => rw [e2] at e; simp at e
    | ok r h2 =>
    rw [e2, Res.bind_ok] at e
    have key : ∀ n, cost .fresh (if p + 1 = c then Pure.pure (p + 1, r) else if r = 0 then fillInner v k (p + 1) c else Pure.pure (p + 1, r) : Prog α _) h2 ≤ n →
        cost .fresh (Fine.vecNode v (p + 1) >>= fun a => Fine.degree a >>= fun r =>
          if p + 1 = c then Pure.pure (p + 1, r) else if r = 0 then fillInner v k (p + 1) c else Pure.pure (p + 1, r)) h ≤ 1 + (1 + n) := by
      intro n hn
      refine cost_seq (imp_vecNode _ _).upto e1 (Nat.le_of_eq (cost_access _ _)) (cost_seq (imp_degree _).upto e2 ?_ hn)
      have : Cst .fresh (Fine.degree a : Prog α _) 1 := CI.cst fun u => by unf; ci
      exact this h1
    by_cases h3 : p + 1 = c
    · simp only [h3, if_true, M.pure_apply, Res.ok.injEq, Prod.mk.injEq] at e
      obtain ⟨⟨rfl, rfl⟩, -⟩ := e
      refine ⟨Nat.le_trans (key 0 ?_) (by omega), by omega⟩
      simp only [h3, if_true]; exact Nat.le_refl _
    · simp only [h3, if_false] at e
      by_cases h4 : r = 0
      · simp only [h4, if_true] at e
        obtain ⟨g1, g2⟩ := ih _ e
        refine ⟨Nat.le_trans (key (2 * (p' - (p + 1))) ?_) (by omega), by omega⟩
        simp only [h3, h4, if_true, if_false]; exact g1
      · simp only [h4, if_false, M.pure_apply, Res.ok.injEq, Prod.mk.injEq] at e
        obtain ⟨⟨rfl, rfl⟩, -⟩ := e
        refine ⟨Nat.le_trans (key 0 ?_) (by omega), by omega⟩
        simp only [h3, h4, if_false]; exact Nat.le_refl _

/-- The work of a source: `N` for each visit, and what has been saved up (`Φ`); `I` is what it needs to know about the heap, and
`Z` holds when it is exhausted. -/
structure SrcCost (p : σ → Prog α (Option (δ × Size) × σ)) (c : σ → M α (Option (δ × Size) × σ)) (pd : σ → Prog α Unit)
    (R : σ → Heap α → List (δ × Size) → Prop) (N : Nat) (Φ : σ → Nat) : Prop where
  upto : ∀ s, Upto (p s) (c s)
  step : ∀ s h xs o s' h', R s h xs → c s h = .ok (o, s') h' → ∀ P Q F, Avoid P Q h → cost .fresh (p s) (join P Q h F) + Φ s' ≤ N + Φ s
  fin : ∀ s h s' h', c s h = .ok (none, s') h' → ∀ h'', cost .fresh (pd s') h'' = 0

section
variable {p : σ → Prog α (Option (α × Size) × σ)} {nxt : σ → M α (Option (α × Size) × σ)} {pd : σ → Prog α Unit}
  {R : σ → Heap α → List (α × Size) → Prop} {N : Nat} {Φ : σ → Nat}

theorem fillLoop_cost (hR : SrcOK nxt R) (hC : SrcCost p nxt pd R N Φ) {v base : Nat} {ts : List (RTree α)} {dat : Data α} :
    ∀ (k : Nat) (s : σ) (pa c r : Nat) (F hs : Heap α) (K : Addr → List Addr), FInv F v base K ts dat c → c ≤ (qbfs ts).length + 1 → 1 ≤ c →
    Avoid (blkP base ((qbfs ts).length + 1)) (blkQ v) hs →
    (qbfs ts).length + 1 < c + k → pa < c → off ts (qbfs ts) pa + (slotKids ts (qbfs ts) pa).length = c + r →
    r ≤ (slotKids ts (qbfs ts) pa).length → (r = 0 → pa + 1 = c) →
    R s hs (((qbfs ts).drop (c - 1)).map (fun t => (t.data, szOf t))) →
    (∃ s' h', Trees.fillLoop nxt v k s pa c r (join (blkP base ((qbfs ts).length + 1)) (blkQ v) hs F) = .ok s' h' ∧ ∀ h'', cost .fresh (pd s') h'' = 0) ∧
    cost .fresh (fillLoop p v k s pa c r) (join (blkP base ((qbfs ts).length + 1)) (blkQ v) hs F) ≤
      (N + 13) * ((qbfs ts).length + 1 - c) + 2 * (c - pa) + N + Φ s := by
  intro k
  induction k with
  | zero => intros; omega
  | succ k ih =>
    intro s pa c r F hs K B hcn hc1 A hk hpc hoff hr hr0 hRs
    have fr := hR.framed s
    by_cases hfin : c = (qbfs ts).length + 1
    · have : (qbfs ts).drop (c - 1) = [] := by
        rw [List.drop_eq_nil_iff]; omega
      rw [this, List.map_nil] at hRs
      obtain ⟨s', hs', e, hRs'⟩ := hR.nil _ _ hRs
      obtain ⟨A', e'⟩ := fr _ _ F _ _ _ A e
      have h1 := hC.step _ _ _ _ _ _ hRs e _ _ F A
      refine ⟨⟨s', join (blkP base ((qbfs ts).length + 1)) (blkQ v) hs' F, ?_, hC.fin _ _ _ _ e⟩, ?_⟩
      · simp only [Trees.fillLoop, M.bind_apply, e', Res.bind_ok, M.pure_apply]
      · unfold fillLoop
        refine Nat.le_trans (cost_seq (k := 0) (hC.upto s) e' (Nat.le_refl _) (Nat.le_refl _)) ?_
        omega
    · have hj : c - 1 < (qbfs ts).length := by omega
      rw [List.drop_eq_getElem_cons hj, List.map_cons] at hRs
      obtain ⟨s', hs', F', K', p', r', e, FI, A', g1, g2, g3, g4, hRs', n1, n2, n3, n4, n5, n6⟩ := fillLoop_one (k := k) hR.framed hR.cons B hfin hcn hc1 A hpc
        hoff hr hr0 (by simp [List.getElem?_eq_getElem hj]) hRs
      have hdrop : (qbfs ts).drop (c - 1 + 1) = (qbfs ts).drop (c + 1 - 1) := by congr 1; omega
      rw [hdrop] at hRs'
      have h1 := hC.step _ _ _ _ _ _ hRs n1 _ _ F A
      obtain ⟨f1, f2⟩ := ih s' p' (c + 1) r' F' hs' K' FI (by omega) (by omega) A' (by omega) g1 g2 g3 g4 hRs'
      refine ⟨by rw [e]; exact f1, ?_⟩
      unfold fillLoop
      have f3 : (N + 13) * ((qbfs ts).length + 1 - c) = (N + 13) * ((qbfs ts).length + 1 - (c + 1)) + (N + 13) := by
        rw [show (qbfs ts).length + 1 - c = ((qbfs ts).length + 1 - (c + 1)) + 1 by omega, Nat.mul_succ]
      by_cases hr1 : r - 1 = 0
      · obtain ⟨i1, i2⟩ := fillInner_cost _ _ (n5 hr1)
        refine Nat.le_trans (cost_seq (hC.upto s) n2 (Nat.le_refl _) (cost_seq (imp_appendChild _ _ _ _ _).upto n3 (cst_appendChild _ _ _ _ _ _)
          (k := 2 * (p' - pa) + ((N + 13) * ((qbfs ts).length + 1 - (c + 1)) + 2 * (c + 1 - p') + N + Φ s')) ?_)) ?_
        · simp only [n4, if_false, hr1, if_true]
          exact cost_seq (imp_fillInner _ _ _ _).upto (n5 hr1) i1 f2
        · omega
      · obtain ⟨rfl, rfl⟩ := n6 hr1
        refine Nat.le_trans (cost_seq (hC.upto s) n2 (Nat.le_refl _) (cost_seq (imp_appendChild _ _ _ _ _).upto n3 (cst_appendChild _ _ _ _ _ _)
          (k := (N + 13) * ((qbfs ts).length + 1 - (c + 1)) + 2 * (c + 1 - p') + N + Φ s') ?_)) ?_
        · simp only [n4, if_false, hr1]
          exact f2
        · omega

variable {drp : σ → M α Unit} {E : Heap α → Prop}

/-- Everything after the allocation. -/
theorem fill_cost (hR : SrcFull nxt drp R E) (hC : SrcCost p nxt pd R N Φ) {s : σ} {h : Heap α} {ts : List (RTree α)} (hs : R s h (visits ts))
    {n : Nat} (hn : n = (qbfs ts).length + 1) {dat : Nat → Data α} (hdat : ∀ v, dat v = .piledNone v ∨ ∃ d, dat v = .piled d v) :
    ∃ h1 h2 h3 a s', Trees.newVec n h = .ok h.nextVec h1 ∧ Trees.vecMakeNode h.nextVec none 0 (dat h.nextVec) ⟨ts.length, countL ts⟩ h1 = .ok a h2 ∧
      Trees.fillLoop nxt h.nextVec n s 0 1 ts.length h2 = .ok s' h3 ∧ (∀ h'', cost .fresh (pd s') h'' = 0) ∧
      cost .fresh (fillLoop p h.nextVec n s 0 1 ts.length) h2 ≤ (N + 13) * countL ts + 2 + N + Φ s := by
  have hS := hR.st _ _ _ hs
  have A := bumped_avoid hS n
  obtain ⟨F1, e1, hb, hU, hup, hsz, hd⟩ := makeRoot_ok (h := bumped h n) (v := h.nextVec) (base := h.nextAddr) (n := n) (by omega)
    (sz := ⟨ts.length, countL ts⟩) (hdat h.nextVec)
  subst hn
  have B := FInv.start (ts := ts) hb hU hup hsz rfl hd
  obtain ⟨⟨s', h3, e2, hz⟩, hc⟩ := fillLoop_cost hR.ok hC ((qbfs ts).length + 1) s 0 1 ts.length F1 _ _ B (by omega) (by omega) A
    (by omega) (by omega) (by simp [off, slotKids]) (by simp [slotKids])
    (by simp) (by simpa [visits] using hR.bump _ _ _ ((qbfs ts).length + 1) hs)
  refine ⟨_, _, h3, _, s', newVec_join _ _, e1, e2, hz, ?_⟩
  rw [← length_qbfs]
  exact hc

/-- `Tree::from(bfs)`. -/
theorem treeFromBfs_cost (hR : SrcFull nxt drp R E) (hC : SrcCost p nxt pd R N Φ) {s : σ} {h : Heap α} {t : RTree α} (hs : R s h (visits [t])) :
    cost .fresh (treeFromBfs p pd s) h ≤ (N + 13) * t.count + N + Φ s := by
  rw [visits, qbfs_cons, List.map_cons, List.nil_append] at hs
  obtain ⟨s1, h1, e0, hs1⟩ := hR.ok.cons _ _ _ _ hs
  have c0 := hC.step _ _ _ _ _ _ hs e0 (fun _ => false) (fun _ => false) h ⟨by simp, by simp, by simp, by simp, by simp⟩
  rw [show join (fun _ => false) (fun _ => false) h h = h from by simp [join]] at c0
  obtain ⟨g1, g2, g3, a, s', e1, e2, e3, hz, hc⟩ := fill_cost hR hC (n := (szOf t).descendants + 1) hs1
    (by simp [szOf, length_qbfs]) (dat := fun v => .piled t.data v) (fun v => .inr ⟨_, rfl⟩)
  unfold treeFromBfs
  refine Nat.le_trans (cost_seq (hC.upto s) e0 (Nat.le_refl _) (k := 11 + (N + 13) * countL t.kids + N + Φ s1) ?_) ?_
  · show cost .fresh ((Fine.unwrap (some (t.data, szOf t)) : Prog α _) >>= fun x => _) h1 ≤ _
    simp only [Fine.unwrap, pure_bind_p]
    refine Nat.le_trans (cost_seq (n := 1) (upto_newVec _) e1 (cst_newVec _ _) (cost_seq (imp_makePiledNode _ _ _ _ _).upto (b := a) (h' := g2) e2
      (cst_vecMakeNode _ _ _ _ _ _) (cost_seq (upto_fillLoop hC.upto _ _ _ _ _ _) e3 hc (k := 2) ?_))) (by omega)
    refine Nat.le_trans (cost_seqC (k := 1) (n := 1) (Nat.le_of_eq (cost_access _ _)) fun b => ?_) (by omega)
    intro h0
    refine Nat.le_trans (cost_seqC (k := 0) (n := 1) ?_ fun b => ?_) (by omega)
    · have : Cst .fresh (Fine.treeFromNode b : Prog α _) 1 := CI.cst fun u => by unf; ci
      exact this h0
    · intro h0
      exact cost_seqC (n := 0) (k := 0) (Nat.le_of_eq (hz h0)) fun _ => Cst.pure _
  · cases t with
    | node d us =>
      simp only [kids, count] at *
      rw [Nat.mul_add]
      omega

/-- `Forest::from(bfs)`. -/
theorem forestFromBfs_cost (hR : SrcFull nxt drp R E) (hC : SrcCost p nxt pd R N Φ) {s : σ} {h : Heap α} {ts : List (RTree α)} (hs : R s h (visits ts)) :
    cost .fresh (forestFromBfs p pd s ⟨ts.length, countL ts⟩) h ≤ (N + 13) * countL ts + N + Φ s + 10 := by
  obtain ⟨g1, g2, g3, a, s', e1, e2, e3, hz, hc⟩ := fill_cost hR hC (n := countL ts + 1) hs
    (by simp [length_qbfs]) (dat := fun v => .piledNone v) (fun v => .inl rfl)
  unfold forestFromBfs
  refine Nat.le_trans (cost_seq (n := 1) (upto_newVec _) e1 (cst_newVec _ _) (cost_seq (imp_vecMakeNode _ _ _ _ _).upto e2
      (cst_vecMakeNode _ _ _ _ _ _) (cost_seq (upto_fillLoop hC.upto _ _ _ _ _ _) e3 hc (k := 1) ?_))) (by omega)
  refine Nat.le_trans (cost_seqC (k := 0) (n := 1) (Nat.le_of_eq (cost_access _ _)) fun b => ?_) (by omega)
  intro h0
  exact cost_seqC (n := 0) (k := 0) (Nat.le_of_eq (hz h0)) fun _ => Cst.pure _

end

end Fine
end Trees
