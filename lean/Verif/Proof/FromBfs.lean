import Verif.Proof.Fill
import Verif.Proof.Main
/-
`Tree::from(bfs)`, `Forest::from(bfs)`: the functions as a whole, and binding the result in the machine.
-/
namespace Trees
set_option linter.unusedSimpArgs false
variable {α β γ σ : Type}
open RTree

/-- A source that can be consumed while a block is being filled. -/
structure SrcFull (nxt : σ → M α (Option (β × Size) × σ)) (drp : σ → M α Unit)
    (R : σ → Heap α → List (β × Size) → Prop) (E : Heap α → Prop) : Prop where
  ok : SrcOK nxt R
  st : ∀ s h xs, R s h xs → SInv h
  bump : ∀ s h xs n, R s h xs → R s (bumped h n) xs
  dframed : ∀ s, Framed (drp s)
  fin : ∀ s h, R s h [] → ∃ h', drp s h = .ok () h' ∧ E h'

/-- The visits of a list of trees. -/
def visits (ts : List (RTree α)) : List (α × Size) := (qbfs ts).map (fun t => (t.data, szOf t))

/-- The block with only its first slot filled. -/
theorem FInv.start {F : Heap α} {v base : Nat} {ts : List (RTree α)} {dat : Data α} {sz : Size}
    (hb : BInv F v base ((qbfs ts).length + 1) (fun _ => [])) (hU : ∀ a, F.Used a ↔ a = base) (hup : F.up base = none)
    (hsz : F.size base = sz) (hs : sz = ⟨ts.length, countL ts⟩) (hd : F.data base = dat) :
    FInv F v base (fun _ => []) ts dat 1 := by
  refine ⟨hb, ?_, hup, ?_, hd, by rw [hsz, hs], ?_, ?_⟩
  · intro i
    rw [hU]
    constructor
    · intro h; aomega
    · intro h; aomega
  · intro i h1 h2; omega
  · intro j t _ h; omega
  · intro i hi
    have : i = 0 := by omega
    subst this
    simp [off]

/-- The result of building a block: the rest of the heap satisfies `E`. -/
structure Built (E : Heap α → Prop) (h' : Heap α) (base : Addr) (ts : List (RTree α)) (dat : Nat → Data α) : Prop where
  ex : ∃ (hs F : Heap α) (K : Addr → List Addr) (v n : Nat), h' = join (blkP base n) (blkQ v) hs F ∧ n = countL ts + 1 ∧
    Filled F v base n K ts (dat v) ∧ Avoid (blkP base n) (blkQ v) hs ∧ E hs

section
variable {nxt : σ → M α (Option (α × Size) × σ)} {drp : σ → M α Unit} {R : σ → Heap α → List (α × Size) → Prop} {E : Heap α → Prop}

/-- Everything after the allocation. -/
theorem fill_ok (hR : SrcFull nxt drp R E) {s : σ} {h : Heap α} {ts : List (RTree α)} (hs : R s h (visits ts))
    {n : Nat} (hn : n = (qbfs ts).length + 1) {dat : Nat → Data α} (hdat : ∀ v, dat v = .piledNone v ∨ ∃ d, dat v = .piled d v) :
    ∃ F1 s' hs' F K, newVec n h = .ok h.nextVec (join (blkP h.nextAddr n) (blkQ h.nextVec) (bumped h n) (rawBlock h.nextVec h.nextAddr n)) ∧
      vecMakeNode h.nextVec none 0 (dat h.nextVec) ⟨ts.length, countL ts⟩
        (join (blkP h.nextAddr n) (blkQ h.nextVec) (bumped h n) (rawBlock h.nextVec h.nextAddr n)) =
        .ok h.nextAddr (join (blkP h.nextAddr n) (blkQ h.nextVec) (bumped h n) F1) ∧
      fillLoop nxt h.nextVec n s 0 1 ts.length (join (blkP h.nextAddr n) (blkQ h.nextVec) (bumped h n) F1) =
        .ok s' (join (blkP h.nextAddr n) (blkQ h.nextVec) hs' F) ∧
      Filled F h.nextVec h.nextAddr n K ts (dat h.nextVec) ∧
      R s' hs' [] ∧ Avoid (blkP h.nextAddr n) (blkQ h.nextVec) hs' := by
  have hS := hR.st _ _ _ hs
  have A := bumped_avoid hS n
  obtain ⟨F1, e1, hb, hU, hup, hsz, hd⟩ := makeRoot_ok (h := bumped h n) (v := h.nextVec) (base := h.nextAddr) (n := n) (by omega)
    (sz := ⟨ts.length, countL ts⟩) (hdat h.nextVec)
  subst hn
  have B := FInv.start (ts := ts) hb hU hup hsz rfl hd
  obtain ⟨s', hs', F, K, e2, B2, A2, hR2⟩ := fillLoop_ok hR.ok ((qbfs ts).length + 1) s 0 1 ts.length F1 _ _ B (by omega) (by omega) A
    (by omega) (by omega) (by simp [off, slotKids]) (by simp [slotKids])
    (by simp) (by simpa [visits] using hR.bump _ _ _ ((qbfs ts).length + 1) hs)
  exact ⟨F1, s', hs', F, K, newVec_join _ _, e1, e2, B2.filled, hR2, A2⟩

theorem treeFromBfs_ok (hR : SrcFull nxt drp R E) {s : σ} {h : Heap α} {t : RTree α} (hs : R s h (visits [t])) :
    ∃ a h', treeFromBfs nxt drp s h = .ok a h' ∧ Built E h' a t.kids (fun v => .piled t.data v) := by
  rw [visits, qbfs_cons, List.map_cons, List.nil_append] at hs
  obtain ⟨s1, h1, e0, hs1⟩ := hR.ok.cons _ _ _ _ hs
  obtain ⟨F1, s', hs', F, K, e1, e2, e3, B, hR2, A⟩ := fill_ok hR (n := (szOf t).descendants + 1) hs1
    (by simp [szOf, length_qbfs]) (dat := fun v => .piled t.data v) (fun v => .inr ⟨_, rfl⟩)
  obtain ⟨h2, e4, hE⟩ := hR.fin _ _ hR2
  obtain ⟨A2, e5⟩ := hR.dframed _ _ _ F _ _ _ A e4
  have hv : vecNode h1.nextVec 0 (join (blkP h1.nextAddr ((szOf t).descendants + 1)) (blkQ h1.nextVec) hs' F) = _ :=
    vecNode_join blkQ_self B.b.vec (Nat.succ_pos _)
  have hp := blkP_add (base := h1.nextAddr) (n := (szOf t).descendants + 1) (i := 0) (by omega)
  have hl : F.live (h1.nextAddr + 0) = true := (B.b.live _).mpr (blkP_iff.mp hp)
  have hu : upd F.up (h1.nextAddr + 0) none = F.up := by
    funext x
    simp only [upd_apply]
    split
    · rename_i e; rw [e]; exact B.root.symm
    · rfl
  have e6 := setUp_join (Q := blkQ h1.nextVec) (h := hs') hp hl none
  rw [hu] at e6
  refine ⟨h1.nextAddr, _, ?_, ⟨h2, F, K, _, _, rfl, by cases t; simp [szOf], B, A2, hE⟩⟩
  simp only [treeFromBfs, M.bind_apply, e0, Res.bind_ok, unwrap, M.pure_apply, e1, makePiledNode, treeFromNode]
  have e2' := e2
  simp only [show (⟨t.kids.length, countL t.kids⟩ : Size) = szOf t from rfl] at e2'
  have e3' := e3
  simp only [show t.kids.length = (szOf t).degree from rfl] at e3'
  rw [e2']
  simp only [Res.bind_ok, e3', hv, e6, e5]
  rfl

theorem forestFromBfs_ok (hR : SrcFull nxt drp R E) {s : σ} {h : Heap α} {ts : List (RTree α)} (hs : R s h (visits ts)) :
    ∃ a h', forestFromBfs nxt drp s ⟨ts.length, countL ts⟩ h = .ok a h' ∧ Built E h' a ts (fun v => .piledNone v) := by
  obtain ⟨F1, s', hs', F, K, e1, e2, e3, B, hR2, A⟩ := fill_ok hR (n := countL ts + 1) hs
    (by simp [length_qbfs]) (dat := fun v => .piledNone v) (fun v => .inl rfl)
  obtain ⟨h2, e4, hE⟩ := hR.fin _ _ hR2
  obtain ⟨A2, e5⟩ := hR.dframed _ _ _ F _ _ _ A e4
  have hv : vecNode h.nextVec 0 (join (blkP h.nextAddr (countL ts + 1)) (blkQ h.nextVec) hs' F) = _ :=
    vecNode_join blkQ_self B.b.vec (Nat.succ_pos _)
  refine ⟨h.nextAddr, _, ?_, ⟨h2, F, K, _, _, rfl, by omega, B, A2, hE⟩⟩
  simp only [forestFromBfs, M.bind_apply, Res.bind_ok, M.pure_apply, e1, e2, e3, hv, e5]
  rfl

end

/-- Binding a newly built block: the rest of the heap belongs to a good machine state. -/
theorem Built.sim {env : Var → Option Handle} {fresh : Nat} {S : Store α} {h' : Heap α} {base : Addr} {ts : List (RTree α)} {dat : Nat → Data α}
    (B : Built (fun h => ∃ K, MInv ⟨h, env, fresh⟩ K ∧ Abs ⟨h, env, fresh⟩ K S) h' base ts dat)
    {hd : Handle} {v : Val α} (hd1 : hd.addr = base)
    (hkind : ∀ w, (∃ r d t, hd = .tree r ∧ dat w = .piled d w ∧ v = .tree (.node d t) ∧ t = ts) ∨ (∃ r, hd = .forest r ∧ dat w = .piledNone w ∧ v = .forest ts)) :
    Sim (.ok ⟨h', upd env fresh (some hd), fresh + 1⟩ (.var fresh)) (.ok (S.bind v) (.var S.fresh)) := by
  obtain ⟨hs, F, KF, w, n, rfl, hn', G, A, K, MI, AB⟩ := B.ex
  have hn : 0 < n := by omega
  have hI := assemble_inv MI.inv A G.b G.sz
  have hS := assemble_sinv MI.st A G.b hn G.all
  have hPb : blkP base n base = true := by have := blkP_add (base := base) hn; simpa using this
  have hUb : F.Used base := G.all _ hPb
  have inKF : ∀ {a c}, c ∈ KF a → F.Used c ∧ F.Used a ∧ F.up c = some a := by
    intro a c hc
    have h1 := (G.b.l.mem a c).mp hc
    exact ⟨h1.1, G.b.l.upU a c h1.1 (by simp) h1.2.2, h1.2.2⟩
  have outK : ∀ {a c}, c ∈ K a → blkP base n c = false := fun hc => A.notP (MI.inv.used_of_mem hc).1
  have hIVin : ∀ {a}, blkP base n a = true → ((join (blkP base n) (blkQ w) hs F).IsVal a ↔ F.IsVal a) := by
    intro a ha; simp [Heap.IsVal, join, ha]
  have hIVout : ∀ {a}, blkP base n a = false → ((join (blkP base n) (blkQ w) hs F).IsVal a ↔ hs.IsVal a) := by
    intro a ha; simp [Heap.IsVal, join, ha]
  have hden : DenL (join (blkP base n) (blkQ w) hs F).val (joinK (blkP base n) K KF) (joinK (blkP base n) K KF base) ts := by
    have : joinK (blkP base n) K KF base = KF base := by simp [joinK, hPb]
    rw [this]
    refine G.den.congr (fun c hc x hr => ?_)
    have hxU : F.Used x := by
      have hcU := (inKF hc).1
      clear hUb this hc
      induction hr with
      | refl => exact hcU
      | step h2 _ ih => exact ih (inKF h2).1
    have hp := G.b.inP hxU
    exact ⟨by simp [joinK, hp], join_val_in hp⟩
  refine sim_bind_new (K' := joinK (blkP base n) K KF) MI AB hI hS ?_ ?_ ?_ ?_ ?_ ?_ ?_ ?_
  · intro a c hc
    simp only [joinK] at hc
    split at hc
    · obtain ⟨h1, h2, h3⟩ := inKF hc
      rw [hIVin (G.b.inP h1)]
      refine G.isVal c h1 ?_
      rintro rfl
      rw [G.root] at h3; simp at h3
    · rw [hIVout (outK hc)]; exact MI.kv a c hc
  · intro b hb _
    have hp := A.notP hb.1
    exact ⟨(join_used A G.b).mpr (.inl hb), by simp [joinK, hp], join_val_out hp⟩
  · intro b hb
    have hp := A.notP hb.1
    simp [join, hp]
  · intro b hb
    rcases (join_used A G.b).mp hb with h | h
    · exact .inl h
    · right
      intro hu
      rw [hd1]
      have hp := G.b.inP h
      simp only [join, hp, if_true] at hu
      exact G.only b h hu
  · rw [hd1]
    intro hb
    rw [A.notP hb.1] at hPb; simp at hPb
  · refine ⟨?_, ?_, ?_⟩
    · rw [hd1]; exact (join_used A G.b).mpr (.inr hUb)
    · rw [hd1]; simp [join, hPb, G.root]
    · rcases hkind w with ⟨r, d, t, rfl, h2, _⟩ | ⟨r, rfl, h2, _⟩
      · simp only [Handle.addr] at hd1
        subst hd1
        show (join _ _ _ _).IsVal _
        rw [hIVin hPb]
        simp [Heap.IsVal, G.dat, h2, Data.val?]
      · simp only [Handle.addr] at hd1
        subst hd1
        show (join _ _ _ _).val _ = none
        rw [join_val_in hPb]
        simp [Heap.val, G.dat, h2, Data.val?]
  · rcases hkind w with ⟨r, d, t, rfl, h2, rfl, rfl⟩ | ⟨r, rfl, h2, rfl⟩
    · simp only [Handle.addr] at hd1
      subst hd1
      simp only [HDen, Den_node]
      refine ⟨?_, hden⟩
      rw [join_val_in hPb]
      simp [Heap.val, G.dat, h2, Data.val?]
    · simp only [Handle.addr] at hd1
      subst hd1
      exact hden
  · rfl

/-- A whole structure stored in one block: exactly the nodes below `a` are the slots of the block. -/
def InBlock (h : Heap α) (a : Addr) (n : Nat) : Prop :=
  ∀ K, Inv h K → ∃ v nv, h.vec v = some nv ∧ nv.cap = n ∧ nv.refCnt = n ∧ ∀ b, Reach K a b ↔ InVec nv b

/-- What was built is stored in one block, made for it. -/
theorem Built.inBlock {E : Heap α → Prop} (hE : ∀ h, E h → ∃ K, Inv h K) {h' : Heap α} {base : Addr} {ts : List (RTree α)} {dat : Nat → Data α}
    (B : Built E h' base ts dat) : InBlock h' base (countL ts + 1) := by
  intro K' hI'
  obtain ⟨hs, F, KF, w, n, rfl, hn, G, A, hEs⟩ := B.ex
  obtain ⟨Ks, hIs⟩ := hE hs hEs
  subst hn
  have inB : ∀ {b}, InVec ⟨base, countL ts + 1, countL ts + 1⟩ b ↔ blkP base (countL ts + 1) b = true := by
    intro b; rw [blkP_iff]; rfl
  refine ⟨w, ⟨base, countL ts + 1, countL ts + 1⟩, ?_, rfl, rfl, ?_⟩
  · show (if blkQ w w = true then F.vec w else hs.vec w) = _
    rw [if_pos blkQ_self]; exact G.b.vec
  have hbase : blkP base (countL ts + 1) base = true := by
    have := blkP_add (base := base) (n := countL ts + 1) (i := 0) (Nat.succ_pos _); simpa using this
  -- parents of nodes in the block are in the block, children too
  have down : ∀ {b c}, c ∈ K' b → blkP base (countL ts + 1) b = true → blkP base (countL ts + 1) c = true := by
    intro b c hc hb
    cases hp : blkP base (countL ts + 1) c with
    | true => rfl
    | false =>
      have h1 := hI'.mem_iff.mp hc
      have h2 := (join_used_out hp).mp h1.1
      have h3 : hs.up c = some b := by
        have := h1.2
        simpa [join, hp] using this
      have h4 := hIs.l.upU b c h2 (by simp) h3
      rw [A.notP h4.1] at hb; simp at hb
  have up : ∀ {b c}, c ∈ K' b → blkP base (countL ts + 1) c = true → blkP base (countL ts + 1) b = true := by
    intro b c hc hp
    have h1 := hI'.mem_iff.mp hc
    have h2 := (join_used_in hp).mp h1.1
    have h3 : F.up c = some b := by
      have := h1.2
      simpa [join, hp] using this
    exact G.b.inP (G.b.l.upU b c h2 (by simp) h3)
  intro b
  rw [inB]
  constructor
  · intro hr
    have : ∀ a b, Reach K' a b → blkP base (countL ts + 1) a = true → blkP base (countL ts + 1) b = true := by
      intro a b hr
      induction hr with
      | refl => exact id
      | step h1 _ ih => exact fun ha => ih (down h1 ha)
    exact this _ _ hr hbase
  · intro hb
    have hU : (join (blkP base (countL ts + 1)) (blkQ w) hs F).Used b := (join_used_in hb).mpr (G.all b hb)
    obtain ⟨r, h1, h2, h3⟩ := hI'.exists_root hU
    have hr : blkP base (countL ts + 1) r = true := by
      clear h1 h2 hU
      induction h3 with
      | refl => exact hb
      | step h4 _ ih => exact up h4 (ih hb)
    have : F.up r = none := by simpa [join, hr] using h2
    have := G.only r (G.all r hr) this
    subst this
    exact h3

end Trees
