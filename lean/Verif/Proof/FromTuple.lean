import Verif.Proof.TupleFill
import Verif.Proof.BfsOps
/-
`Tree::from_tuple`, `Forest::from_tuple` as a whole.
-/
namespace Trees
set_option linter.unusedSimpArgs false
variable {α : Type}
open RTree Tup

/-- Nodes above level `m`. -/
def above (ts : List (RTree α)) (m : Nat) : Nat := countL ts - countL (level m ts)

theorem level_succ (m : Nat) : ∀ ts : List (RTree α), level (m + 1) ts = (level m ts).flatMap kids := by
  induction m with
  | zero => intro ts; rfl
  | succ m ih => intro ts; rw [level, ih]; rfl

theorem countL_level_succ (ts : List (RTree α)) (m : Nat) : countL (level m ts) = (level m ts).length + countL (level (m + 1) ts) := by
  rw [level_succ, countL_kids (level m ts)]

theorem countL_level_le (ts : List (RTree α)) (m : Nat) : countL (level m ts) ≤ countL ts := by
  induction m with
  | zero => simp [level]
  | succ m ih => have := countL_level_succ ts m; omega

theorem above_succ (ts : List (RTree α)) (m : Nat) : above ts (m + 1) = above ts m + (level m ts).length := by
  have h1 := countL_level_succ ts m
  have h2 := countL_level_le ts m
  simp only [above]; omega

theorem above_zero (ts : List (RTree α)) : above ts 0 = 0 := by simp [above, level]

theorem above_mono (ts : List (RTree α)) {m k : Nat} (h : m ≤ k) : above ts m ≤ above ts k := by
  induction h with
  | refl => exact Nat.le_refl _
  | step _ ih => rw [above_succ]; omega

theorem above_le (ts : List (RTree α)) (m : Nat) : above ts m ≤ countL ts := by simp [above]

theorem above_slot (ts : List (RTree α)) {m i : Nat} (h : i < above ts m) : ∃ k j, j < (level k ts).length ∧ i = above ts k + j := by
  induction m with
  | zero => simp [above_zero] at h
  | succ m ih =>
    by_cases hi : i < above ts m
    · exact ih hi
    · rw [above_succ] at h
      exact ⟨m, i - above ts m, by omega, by omega⟩

theorem offsetsLoop_length (desc : Nat → Nat) : ∀ k prev j, (offsetsLoop desc k prev j).length = k := by
  intro k
  induction k with
  | zero => intro _ _; rfl
  | succ k ih => intro prev j; simp [offsetsLoop, ih]

theorem offsetsLoop_get {ts : List (RTree α)} {desc : Nat → Nat} (hd : ∀ j, desc j = (level j ts).length) :
    ∀ k j i, i < k → (offsetsLoop desc k (1 + above ts j) j).getD i 0 = 1 + above ts (j + i + 1) := by
  intro k
  induction k with
  | zero => intro j i h; omega
  | succ k ih =>
    intro j i h
    have e : 1 + above ts j + desc j = 1 + above ts (j + 1) := by rw [above_succ, hd]; omega
    simp only [offsetsLoop, e]
    cases i with
    | zero => simp
    | succ i =>
      have := ih (j + 1) i (by omega)
      rw [List.getD_cons_succ, this]
      congr 2; omega

theorem initOffsets_length (H : Nat) (desc : Nat → Nat) : (initOffsets (H + 1) desc).length = H + 1 := by
  simp only [initOffsets]
  split
  · simp [offsetsLoop_length]; omega
  · simp; omega

theorem initOffsets_zero (H : Nat) (desc : Nat → Nat) : (initOffsets H desc)[0]? = some 0 := by
  simp only [initOffsets]; split <;> rfl

theorem initOffsets_get {ts : List (RTree α)} {desc : Nat → Nat} (hd : ∀ j, desc j = (level j ts).length) {H k : Nat} (hk : k < H) :
    (initOffsets (H + 1) desc).getD (1 + k) 0 = 1 + above ts k := by
  simp only [initOffsets]
  rw [if_pos (by omega)]
  cases k with
  | zero => simp [above_zero]
  | succ k =>
    have := offsetsLoop_get hd (H + 1 - 2) 0 k (by omega)
    rw [above_zero] at this
    rw [show 1 + (k + 1) = k + 1 + 1 by omega, List.getD_cons_succ, List.getD_cons_succ]
    simpa using this

theorem fd_level (ks : List (Tup α)) (k : Nat) : forestDescendants ks k = (level k (toTreeL ks)).length :=
  c33_descendants_forest ks k

/-- Filling the whole block below its first slot. -/
theorem fill_block {g : Bool} {v base n : Nat} {h F1 : Heap α} {ks : List (Tup α)} (hg : goodL ks = true) {dat : Data α}
    (hn : n = countL (toTreeL ks) + 1)
    (hb : BInv F1 v base n (fun _ => [])) (hU : ∀ a, F1.Used a ↔ a = base) (hup : F1.up base = none)
    (hsz : F1.size base = ⟨(toTreeL ks).length, countL (toTreeL ks)⟩) (hd : F1.data base = dat) {desc : Nat → Nat}
    (hdesc : ∀ j, desc j = (level j (toTreeL ks)).length) :
    ∃ F K c, placeAll g v ⟨false, 0, 1, initOffsets (heightMax ks + 1) desc⟩ (preorderWithSizeHintL ks) (join (blkP base n) (blkQ v) h F1) =
        .ok c (join (blkP base n) (blkQ v) h F) ∧ Filled F v base n K (toTreeL ks) dat ∧ c.depth = 1 ∧
      (c.leaf = true → 0 < c.offsets.length) := by
  have hlt : ∀ k, 0 < forestDescendants ks k → k < heightMax ks := by
    intro k hk
    rw [fd_level] at hk
    by_contra hc
    have := (Proof.heightMax_iff ks k).mpr (by omega)
    rw [this] at hk; simp at hk
  have ho : ∀ k i, i < forestDescendants ks k → (initOffsets (heightMax ks + 1) desc).getD (1 + k) 0 = 1 + above (toTreeL ks) k :=
    fun k i hi => initOffsets_get hdesc (hlt k (by omega))
  have hbound : ∀ k i, i < forestDescendants ks k → above (toTreeL ks) k + i < countL (toTreeL ks) := by
    intro k i hi
    have h1 := above_succ (toTreeL ks) k
    have h2 := above_le (toTreeL ks) (k + 1)
    rw [fd_level] at hi; omega
  obtain ⟨F, K, c, e, Q, hdep, hlf, hcl⟩ := fillOK (g := g) (v := v) (base := base) (n := n) (h := h) ks hg 1 0 F1 _ false
    (initOffsets (heightMax ks + 1) desc) hb (by omega) ((hU _).mpr rfl) (Nat.le_refl _) (initOffsets_zero _ _)
    (fun k hk => by rw [initOffsets_length]; have := hlt k hk; omega)
    (by
      intro k i hi
      rw [ho k i hi]
      have := hbound k i hi
      refine ⟨by omega, ?_⟩
      rw [hU]
      intro e
      have e : base + (1 + above (toTreeL ks) k + i) = base := e
      omega)
    (by
      intro k k' i i' hi hi' e
      rw [ho k i hi, ho k' i' hi'] at e
      have h1 := above_succ (toTreeL ks) k
      have h2 := above_succ (toTreeL ks) k'
      rw [fd_level] at hi hi'
      rcases Nat.lt_trichotomy k k' with h3 | h3 | h3
      · have := above_mono (toTreeL ks) (show k + 1 ≤ k' by omega); omega
      · exact h3
      · have := above_mono (toTreeL ks) (show k' + 1 ≤ k by omega); omega)
  have hbU : F1.Used base := (hU _).mpr rfl
  obtain ⟨o1, o2, o3⟩ := Q.old base hbU
  have hden : DenL F.val K (K base) (toTreeL ks) := by
    have hk := Q.kp
    simp only [Nat.add_zero, List.nil_append] at hk
    rw [hk]; exact Q.den
  have hcase : ∀ a, F.Used a → a = base ∨ Slot base (fun k => (initOffsets (heightMax ks + 1) desc).getD (1 + k) 0) ks a := by
    intro a ha
    rcases (Q.used a).mp ha with h1 | h1
    · exact .inl ((hU a).mp h1)
    · exact .inr h1
  refine ⟨F, K, c, e, ⟨Q.b, ?_, ?_, by rw [o1, hup], ?_, by rw [o3, hd], hden, ?_⟩, hdep, ?_⟩
  · intro a ha
    have ha := blkP_iff.mp ha
    rw [Q.used]
    by_cases hab : a = base
    · exact .inl ((hU a).mpr hab)
    · right
      have hi : a - base - 1 < above (toTreeL ks) (heightMax ks) := by
        have := (Proof.heightMax_iff ks (heightMax ks)).mpr (Nat.le_refl _)
        simp only [above, this, countL]
        aomega
      obtain ⟨k, j, hj, e2⟩ := above_slot _ hi
      rw [← fd_level] at hj
      refine ⟨k, j, hj, ?_⟩
      have e3 := ho k j hj
      show a = base + ((initOffsets (heightMax ks + 1) desc).getD (1 + k) 0 + j)
      rw [e3]
      aomega
  · intro a ha
    refine sz_of_den (val := F.val) (U := F.Used) (fun a c hc => ((Q.b.l.mem a c).mp hc).1) ?_ ha
    intro b hb
    rcases hcase b hb with rfl | h1
    · exact ⟨_, hden, by rw [o2, hsz]⟩
    · obtain ⟨-, -, us, h2, h3⟩ := Q.new b h1
      exact ⟨us, h2, h3⟩
  · intro a ha hu
    rcases hcase a ha with rfl | h1
    · rfl
    · exact absurd hu (Q.new a h1).1
  · intro a ha hne
    rcases hcase a ha with rfl | h1
    · exact absurd rfl hne
    · exact (Q.new a h1).2.1
  · intro hl
    have : cleanL ks = true := by
      rw [hlf] at hl
      simp only [lastLeaf] at hl
      simp only [cleanL]
      cases hg : ks.getLast? with
      | none => rfl
      | some k => rw [hg] at hl; simp [hl]
    rw [(hcl this).2.1, initOffsets_length]
    omega

section
variable {h : Heap α} {E : Heap α → Prop}

theorem treeFromTuple_ok (hS : SInv h) (hE : ∀ n, E (bumped h n)) {t : Tup α} (hg : t.good = true) :
    ∃ a h', treeFromTuple t h = .ok a h' ∧ Built E h' a t.toTree.kids (fun v => .piled t.item v) := by
  have hg' : goodL t.elems = true := by cases t with
    | bare d => rfl
    | tup d ks => simpa [good, elems] using hg
  have hk : t.toTree.kids = toTreeL t.elems := by rw [toTree_eq]; rfl
  have hn : t.size.descendants + 1 = countL (toTreeL t.elems) + 1 := by rw [size_szOf]
  have A := bumped_avoid hS (t.size.descendants + 1)
  obtain ⟨F1, e1, hb, hU, hup, hsz, hd⟩ := makeRoot_ok (h := bumped h (t.size.descendants + 1)) (v := h.nextVec) (base := h.nextAddr)
    (n := t.size.descendants + 1) (by omega) (dat := .piled t.item h.nextVec) (sz := t.size) (.inr ⟨_, rfl⟩)
  have hdesc : ∀ j, t.descendants j = (level j (toTreeL t.elems)).length := by
    intro j
    rw [Proof.descendants_eq, toTree_eq]; simp [level]
  have hH : t.height = heightMax t.elems + 1 := by cases t <;> simp [height, elems, heightMax]; omega
  obtain ⟨F, K, c, e2, G, hdep, hlen⟩ := fill_block (g := true) (h := bumped h (t.size.descendants + 1)) hg' hn hb hU hup (by rw [hsz, size_szOf]) hd hdesc
  have hv : vecNode h.nextVec 0 (join (blkP h.nextAddr (t.size.descendants + 1)) (blkQ h.nextVec) (bumped h (t.size.descendants + 1)) F) = _ :=
    vecNode_join blkQ_self G.b.vec (Nat.succ_pos _)
  have hp := blkP_add (base := h.nextAddr) (n := t.size.descendants + 1) (i := 0) (by omega)
  have hl : F.live (h.nextAddr + 0) = true := (G.b.live _).mpr (blkP_iff.mp hp)
  have hu : upd F.up (h.nextAddr + 0) none = F.up := by
    funext x
    simp only [upd_apply]
    split
    · rename_i e; rw [e]; exact G.root.symm
    · rfl
  have e6 := setUp_join (Q := blkQ h.nextVec) (h := bumped h (t.size.descendants + 1)) hp hl none
  rw [hu] at e6
  have e7 : constructTree h.nextVec t (join (blkP h.nextAddr (t.size.descendants + 1)) (blkQ h.nextVec) (bumped h (t.size.descendants + 1))
      (rawBlock h.nextVec h.nextAddr (t.size.descendants + 1))) =
      .ok () (join (blkP h.nextAddr (t.size.descendants + 1)) (blkQ h.nextVec) (bumped h (t.size.descendants + 1)) F) := by
    rw [← hH] at e2
    by_cases hleaf : t.isLeaf = true
    · have hel : t.elems = [] := by simpa [isLeaf] using hleaf
      rw [hel] at e2
      simp only [preorderWithSizeHintL, placeAll, M.pure_apply, Res.ok.injEq] at e2
      obtain ⟨-, e2⟩ := e2
      simp only [constructTree, preorderWithSizeHint_leaf hleaf, Visit.data?, makePiledNode, M.bind_apply, e1, Res.bind_ok, placeAll, M.pure_apply, e2]
    · have hleaf : t.isLeaf = false := by simpa using hleaf
      have e3 : placeAll true h.nextVec ⟨false, 0, 1, initOffsets t.height t.descendants⟩ (preorderWithSizeHintL t.elems ++ [(.frame, t.size)])
          (join (blkP h.nextAddr (t.size.descendants + 1)) (blkQ h.nextVec) (bumped h (t.size.descendants + 1)) F1) =
          placeVisit true h.nextVec c .frame t.size (join (blkP h.nextAddr (t.size.descendants + 1)) (blkQ h.nextVec) (bumped h (t.size.descendants + 1)) F) := by
        rw [placeAll_append, M.bind_apply, e2, Res.bind_ok]
        simp only [placeAll, M.bind_apply]
        cases placeVisit true h.nextVec c .frame t.size (join (blkP h.nextAddr (t.size.descendants + 1)) (blkQ h.nextVec) (bumped h (t.size.descendants + 1)) F) <;> rfl
      simp only [constructTree, preorderWithSizeHint_branch hleaf, Visit.data?, makePiledNode, M.bind_apply, e1, Res.bind_ok, List.cons_append, e3]
      have e4 : ∃ c', placeVisit true h.nextVec c .frame t.size (join (blkP h.nextAddr (t.size.descendants + 1)) (blkQ h.nextVec) (bumped h (t.size.descendants + 1)) F) =
          .ok c' (join (blkP h.nextAddr (t.size.descendants + 1)) (blkQ h.nextVec) (bumped h (t.size.descendants + 1)) F) := by
        by_cases hlf : c.leaf = true
        · have h0 := hlen hlf
          have hx : c.offsets[0]? = some c.offsets[0] := List.getElem?_eq_getElem h0
          exact ⟨_, by simp only [placeVisit, hdep, Nat.one_ne_zero, if_false, hlf, if_true, M.bind_apply, bump_ok hx, Res.bind_ok, Nat.sub_self,
            decide_true, Bool.and_self, M.pure_apply]; rfl⟩
        · exact ⟨_, by simp only [placeVisit, hdep, Nat.one_ne_zero, if_false, hlf, M.pure_apply]; rfl⟩
      obtain ⟨c', e4⟩ := e4
      rw [e4]; rfl
  refine ⟨h.nextAddr, _, ?_, ⟨bumped h (t.size.descendants + 1), F, K, h.nextVec, t.size.descendants + 1, rfl, by rw [hk, hn], by rw [hk]; exact G, A, hE _⟩⟩
  simp only [treeFromTuple, M.bind_apply, newVec_join, Res.bind_ok, e7, hv, treeFromNode, e6]
  rfl

theorem forestFromTuple_ok (hS : SInv h) (hE : ∀ n, E (bumped h n)) {ts : List (Tup α)} (hg : goodL ts = true) :
    ∃ a h', forestFromTuple ts h = .ok a h' ∧ Built E h' a (toTreeL ts) (fun v => .piledNone v) := by
  have hsz' : forestSize ts = ⟨(toTreeL ts).length, countL (toTreeL ts)⟩ := c33_size_forest ts
  have hn : (forestSize ts).descendants + 1 = countL (toTreeL ts) + 1 := by rw [hsz']
  have A := bumped_avoid hS ((forestSize ts).descendants + 1)
  obtain ⟨F1, e1, hb, hU, hup, hsz, hd⟩ := makeRoot_ok (h := bumped h ((forestSize ts).descendants + 1)) (v := h.nextVec) (base := h.nextAddr)
    (n := (forestSize ts).descendants + 1) (by omega) (dat := .piledNone h.nextVec) (sz := forestSize ts) (.inl rfl)
  obtain ⟨F, K, c, e2, G, hdep, hlen⟩ := fill_block (g := false) (h := bumped h ((forestSize ts).descendants + 1)) hg hn hb hU hup (by rw [hsz, hsz']) hd (fd_level ts)
  have hv : vecNode h.nextVec 0 (join (blkP h.nextAddr ((forestSize ts).descendants + 1)) (blkQ h.nextVec) (bumped h ((forestSize ts).descendants + 1)) F) = _ :=
    vecNode_join blkQ_self G.b.vec (Nat.succ_pos _)
  refine ⟨h.nextAddr, _, ?_, ⟨bumped h ((forestSize ts).descendants + 1), F, K, h.nextVec, (forestSize ts).descendants + 1, rfl, hn, G, A, hE _⟩⟩
  have hH : forestHeight ts = heightMax ts := by simp [forestHeight]
  simp only [forestFromTuple, constructForest, M.bind_apply, newVec_join, Res.bind_ok, e1, hH, e2, hv, M.pure_apply]
  rfl
end

section
variable {m : Machine α} {K : Addr → List Addr} {S : Store α}

theorem treeFromTuple_sim (M : MInv m K) (A : Abs m K S) {t : Tup α} (hg : t.good = true) :
    ∃ a h', treeFromTuple t m.heap = .ok a h' ∧
      Sim (m.retVar h' m.env (.tree a)) (.ok (S.bind (.tree t.toTree)) (.var S.fresh)) ∧
      InBlock h' a (countL t.toTree.kids + 1) := by
  obtain ⟨a, h', e, B⟩ := treeFromTuple_ok (E := fun h => ∃ K, MInv ⟨h, m.env, m.fresh⟩ K ∧ Abs ⟨h, m.env, m.fresh⟩ K S) M.st
    (fun n => ⟨K, minv_bump M n, abs_bump A n⟩) hg
  refine ⟨a, h', e, ?_, B.inBlock (fun h ⟨K, MI, _⟩ => ⟨K, MI.inv⟩)⟩
  refine B.sim (hd := .tree a) rfl (fun w => .inl ⟨a, _, _, rfl, rfl, ?_, rfl⟩)
  rw [toTree_eq]; rfl

theorem forestFromTuple_sim (M : MInv m K) (A : Abs m K S) {ts : List (Tup α)} (hg : goodL ts = true) :
    ∃ a h', forestFromTuple ts m.heap = .ok a h' ∧
      Sim (m.retVar h' m.env (.forest a)) (.ok (S.bind (.forest (toTreeL ts))) (.var S.fresh)) ∧
      InBlock h' a (countL (toTreeL ts) + 1) := by
  obtain ⟨a, h', e, B⟩ := forestFromTuple_ok (E := fun h => ∃ K, MInv ⟨h, m.env, m.fresh⟩ K ∧ Abs ⟨h, m.env, m.fresh⟩ K S) M.st
    (fun n => ⟨K, minv_bump M n, abs_bump A n⟩) hg
  exact ⟨a, h', e, B.sim (hd := .forest a) rfl (fun w => .inr ⟨a, rfl, rfl, rfl⟩), B.inBlock (fun h ⟨K, MI, _⟩ => ⟨K, MI.inv⟩)⟩

theorem refines_treeFromTuple (M : MInv m K) (A : Abs m K S) {t : Tup α} : Sim (step m (.treeFromTuple t)) (specStep S (.treeFromTuple t)) := by
  simp only [step, specStep]
  by_cases hg : t.good = true
  · obtain ⟨a, h', e, s, -⟩ := treeFromTuple_sim M A hg
    simp only [hg, if_true, Machine.run, e]; exact s
  · simp [hg, Sim]

theorem refines_forestFromTuple (M : MInv m K) (A : Abs m K S) {ts : List (Tup α)} :
    Sim (step m (.forestFromTuple ts)) (specStep S (.forestFromTuple ts)) := by
  simp only [step, specStep]
  by_cases hg : goodL ts = true
  · obtain ⟨a, h', e, s, -⟩ := forestFromTuple_sim M A hg
    simp only [hg, if_true, Machine.run, e]; exact s
  · simp [hg, Sim]

theorem treeFromTuple_block (M : MInv m K) {t : Tup α} : BlockOut (step m (.treeFromTuple t)) := by
  simp only [step]
  by_cases hg : t.good = true
  · obtain ⟨a, h', e, s, b⟩ := treeFromTuple_sim M M.abs_store hg
    simp only [hg, if_true, Machine.run, e]
    exact blockOut_ret (S' := m.store) rfl s b
  · intro m' y e; simp [hg] at e

theorem forestFromTuple_block (M : MInv m K) {ts : List (Tup α)} : BlockOut (step m (.forestFromTuple ts)) := by
  simp only [step]
  by_cases hg : goodL ts = true
  · obtain ⟨a, h', e, s, b⟩ := forestFromTuple_sim M M.abs_store hg
    simp only [hg, if_true, Machine.run, e]
    exact blockOut_ret (S' := m.store) rfl s b
  · intro m' y e; simp [hg] at e

end
end Trees
