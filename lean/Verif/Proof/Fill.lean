import Verif.Proof.Assemble
/-
`Tree::from(bfs)`, `Forest::from(bfs)`: the loop that fills a block in breadth-first order.
-/
namespace Trees
set_option linter.unusedSimpArgs false
variable {α β γ σ : Type}
open RTree

macro "aomega" : tactic => `(tactic| ((try dsimp only [Addr] at *); omega))

/-- The size reported by a visit. -/
def szOf (t : RTree α) : Size := ⟨t.kids.length, countL t.kids⟩

/-- Child trees of slot `i`, where slot 0 has the children `ts` and slot `j+1` is `L[j]`. -/
def slotKids (ts L : List (RTree α)) : Nat → List (RTree α)
  | 0 => ts
  | j+1 => (L[j]?.map kids).getD []

/-- Slot of the first child of slot `i`. -/
def off (ts L : List (RTree α)) : Nat → Nat
  | 0 => 1
  | i+1 => off ts L i + (slotKids ts L i).length

theorem off_mono {ts L : List (RTree α)} {i j : Nat} (h : i ≤ j) : off ts L i ≤ off ts L j := by
  induction h with
  | refl => exact Nat.le_refl _
  | step _ ih => simp only [off]; omega

theorem off_lt {ts L : List (RTree α)} {i j : Nat} (h : i < j) : off ts L i + (slotKids ts L i).length ≤ off ts L j :=
  off_mono (i := i + 1) h

theorem off_take (ts L : List (RTree α)) : ∀ i, i ≤ L.length →
    off ts L (i + 1) = 1 + (ts ++ (L.take i).flatMap kids).length := by
  intro i
  induction i with
  | zero => intro _; simp [off, slotKids]
  | succ i ih =>
    intro hi
    have := ih (by omega)
    rw [off, this]
    simp only [slotKids]
    rw [List.take_add_one]
    simp only [List.getElem?_eq_getElem (show i < L.length by omega), Option.map_some, Option.getD_some, Option.toList_some,
      List.flatMap_append, List.flatMap_singleton, List.length_append]
    omega

/-- A slot is created before it is needed as a parent. -/
theorem lt_off {ts : List (RTree α)} {c : Nat} (h1 : 1 ≤ c) (h2 : c < (qbfs ts).length + 1) : c < off ts (qbfs ts) c := by
  obtain ⟨k, rfl⟩ : ∃ k, c = k + 1 := ⟨c - 1, by omega⟩
  rw [off_take _ _ _ (by omega)]
  have hk : k < countL ts := by rw [length_qbfs] at h2; omega
  obtain ⟨h3, h4⟩ := qbfs_drop k ts (by omega)
  have : ((ts ++ ((qbfs ts).take k).flatMap kids).drop k) ≠ [] := by
    intro e
    rw [e, qbfs_nil] at h3
    have := congrArg List.length h3
    simp [length_qbfs] at this
    omega
  have h5 : ((ts ++ ((qbfs ts).take k).flatMap kids).drop k).length ≠ 0 := by
    intro e; exact this (List.length_eq_zero_iff.mp e)
  rw [List.length_drop] at h5
  omega

/-- The `k`-th child of slot `i` is in slot `off i + k`. -/
theorem slot_child {ts : List (RTree α)} {i k : Nat} (hi : i < (qbfs ts).length + 1) {t : RTree α}
    (ht : (slotKids ts (qbfs ts) i)[k]? = some t) : (qbfs ts)[off ts (qbfs ts) i + k - 1]? = some t := by
  generalize hL : qbfs ts = L at *
  have hk : L = ts ++ L.flatMap kids := by rw [← hL]; exact qbfs_kids ts
  cases i with
  | zero =>
    simp only [slotKids] at ht
    have hlt := (List.getElem?_eq_some_iff.mp ht).1
    simp only [off]
    rw [hk, show 1 + k - 1 = k by omega, List.getElem?_append_left hlt, ht]
  | succ j =>
    have hj : j < L.length := by omega
    rw [off_take _ _ _ (by omega)]
    simp only [slotKids, List.getElem?_eq_getElem hj, Option.map_some, Option.getD_some] at ht
    have hlt := (List.getElem?_eq_some_iff.mp ht).1
    have e : L.flatMap kids = (L.take j).flatMap kids ++ (L[j].kids ++ (L.drop (j+1)).flatMap kids) := by
      have : L = L.take j ++ L[j] :: L.drop (j + 1) := by rw [← List.drop_eq_getElem_cons hj, List.take_append_drop]
      have h2 := congrArg (List.flatMap kids) this
      rw [List.flatMap_append, List.flatMap_cons] at h2
      exact h2
    suffices h : (ts ++ L.flatMap kids)[1 + (ts ++ (L.take j).flatMap kids).length + k - 1]? = some t by rwa [← hk] at h
    rw [e, show 1 + (ts ++ (L.take j).flatMap kids).length + k - 1 = (ts ++ (L.take j).flatMap kids).length + k by omega,
      ← List.append_assoc, List.getElem?_append_right (by omega), Nat.add_sub_cancel_left,
      List.getElem?_append_left hlt, ht]

theorem off_last (ts : List (RTree α)) : off ts (qbfs ts) ((qbfs ts).length + 1) = (qbfs ts).length + 1 := by
  rw [off_take _ _ _ (Nat.le_refl _), List.take_length]
  have := congrArg List.length (qbfs_kids ts)
  omega

/-- A source: `R s h xs` means that in state `s` and heap `h` the visits `xs` are still to come. -/
structure SrcOK (nxt : σ → M α (Option (β × Size) × σ)) (R : σ → Heap α → List (β × Size) → Prop) : Prop where
  framed : ∀ s, Framed (nxt s)
  cons : ∀ s h x xs, R s h (x :: xs) → ∃ s' h', nxt s h = .ok (some x, s') h' ∧ R s' h' xs
  nil : ∀ s h, R s h [] → ∃ s' h', nxt s h = .ok (none, s') h' ∧ R s' h' []

/-- The block when slots `0 … c-1` have been filled. -/
structure FInv (F : Heap α) (v base : Nat) (K : Addr → List Addr) (ts : List (RTree α)) (dat : Data α) (c : Nat) : Prop where
  b : BInv F v base ((qbfs ts).length + 1) K
  used : ∀ i : Nat, F.Used (base + i) ↔ i < c
  up0 : F.up base = none
  upN : ∀ i : Nat, 0 < i → i < c → F.up (base + i) ≠ none
  dat0 : F.data base = dat
  sz0 : F.size base = ⟨ts.length, countL ts⟩
  slot : ∀ (j : Nat) (t : RTree α), (qbfs ts)[j]? = some t → j + 1 < c → F.size (base + (j + 1)) = szOf t ∧ F.data (base + (j + 1)) = .piled t.data v
  kids : ∀ i : Nat, i < c → K (base + i) = List.range' (base + off ts (qbfs ts) i)
    (min (slotKids ts (qbfs ts) i).length (c - off ts (qbfs ts) i))

theorem FInv.degree {F : Heap α} {v base : Nat} {K : Addr → List Addr} {ts : List (RTree α)} {dat : Data α} {c : Nat} (B : FInv F v base K ts dat c) {i : Nat} (hi : i < c)
    (hn : c ≤ (qbfs ts).length + 1) : (F.size (base + i)).degree = (slotKids ts (qbfs ts) i).length := by
  cases i with
  | zero => rw [Nat.add_zero, B.sz0]; rfl
  | succ j =>
    have hj : j < (qbfs ts).length := by omega
    rw [(B.slot j _ (List.getElem?_eq_getElem hj) hi).1]
    simp [szOf, slotKids, List.getElem?_eq_getElem hj]

theorem fillInner_ok {F hs : Heap α} {v base : Nat} {K : Addr → List Addr} {ts : List (RTree α)} {dat : Data α} {c : Nat}
    (B : FInv F v base K ts dat (c + 1)) (hn : c + 1 ≤ (qbfs ts).length + 1) :
    ∀ (k p : Nat), p < c → c ≤ p + k → off ts (qbfs ts) p + (slotKids ts (qbfs ts) p).length = c + 1 →
    ∃ p' r', fillInner v k p c (join (blkP base ((qbfs ts).length + 1)) (blkQ v) hs F) =
        .ok (p', r') (join (blkP base ((qbfs ts).length + 1)) (blkQ v) hs F) ∧
      p' ≤ c ∧ r' ≤ (slotKids ts (qbfs ts) p').length ∧
      off ts (qbfs ts) p' + (slotKids ts (qbfs ts) p').length = c + 1 + r' ∧ (r' = 0 → p' = c) := by
  intro k
  induction k with
  | zero => intro p h1 h2; omega
  | succ k ih =>
    intro p h1 h2 h3
    have hP := blkP_add (base := base) (n := (qbfs ts).length + 1) (i := p + 1) (by omega)
    have hl : F.live (base + (p + 1)) = true := ((B.used (p + 1)).mpr (by omega)).1
    have hd := B.degree (i := p + 1) (by omega) hn
    simp only [fillInner, M.bind_apply, vecNode_join blkQ_self B.b.vec (i := p + 1) (show p + 1 < (qbfs ts).length + 1 by omega), Res.bind_ok,
      degree_join hP hl, hd]
    by_cases hpc : p + 1 = c
    · simp only [hpc, if_true, M.pure_apply]
      refine ⟨_, _, rfl, Nat.le_refl _, Nat.le_refl _, ?_, fun _ => rfl⟩
      rw [← hpc, off]; omega
    · simp only [hpc, if_false]
      by_cases hr : (slotKids ts (qbfs ts) (p + 1)).length = 0
      · simp only [hr, if_true]
        exact ih (p + 1) (by omega) (by omega) (by rw [hr, off]; omega)
      · simp only [hr, if_false, M.pure_apply]
        refine ⟨_, _, rfl, by omega, Nat.le_refl _, ?_, fun e => absurd e hr⟩
        rw [off]; omega

/-- One turn of the loop. -/
theorem fillLoop_one {nxt : σ → M α (Option (α × Size) × σ)} {R : σ → Heap α → List (α × Size) → Prop}
    (fr : ∀ s, Framed (nxt s)) (hcons : ∀ s h x xs, R s h (x :: xs) → ∃ s' h', nxt s h = .ok (some x, s') h' ∧ R s' h' xs)
    {v base : Nat} {ts : List (RTree α)} {dat : Data α}
    {k : Nat} {s : σ} {p c r : Nat} {F hs : Heap α} {K : Addr → List Addr} {xs : List (α × Size)} (B : FInv F v base K ts dat c)
    (hfin : c ≠ (qbfs ts).length + 1) (hcn : c ≤ (qbfs ts).length + 1) (hc1 : 1 ≤ c)
    (A : Avoid (blkP base ((qbfs ts).length + 1)) (blkQ v) hs) (hpc : p < c)
    (hoff : off ts (qbfs ts) p + (slotKids ts (qbfs ts) p).length = c + r)
    (hr : r ≤ (slotKids ts (qbfs ts) p).length) (hr0 : r = 0 → p + 1 = c)
    {x : α × Size} (hx : ((qbfs ts).map (fun t => (t.data, szOf t)))[c - 1]? = some x) (hRs : R s hs (x :: xs)) :
    ∃ s' hs' F' K' p' r', fillLoop nxt v (k + 1) s p c r (join (blkP base ((qbfs ts).length + 1)) (blkQ v) hs F) =
        fillLoop nxt v k s' p' (c + 1) r' (join (blkP base ((qbfs ts).length + 1)) (blkQ v) hs' F') ∧
      FInv F' v base K' ts dat (c + 1) ∧ Avoid (blkP base ((qbfs ts).length + 1)) (blkQ v) hs' ∧ p' < c + 1 ∧
      off ts (qbfs ts) p' + (slotKids ts (qbfs ts) p').length = c + 1 + r' ∧ r' ≤ (slotKids ts (qbfs ts) p').length ∧
      (r' = 0 → p' + 1 = c + 1) ∧ R s' hs' xs ∧
      nxt s hs = .ok (some x, s') hs' ∧
      nxt s (join (blkP base ((qbfs ts).length + 1)) (blkQ v) hs F) = .ok (some x, s') (join (blkP base ((qbfs ts).length + 1)) (blkQ v) hs' F) ∧
      appendChild v p c x.1 x.2 (join (blkP base ((qbfs ts).length + 1)) (blkQ v) hs' F) =
        .ok () (join (blkP base ((qbfs ts).length + 1)) (blkQ v) hs' F') ∧ r ≠ 0 ∧
      (r - 1 = 0 → fillInner v (c + 1) p c (join (blkP base ((qbfs ts).length + 1)) (blkQ v) hs' F') =
        .ok (p', r') (join (blkP base ((qbfs ts).length + 1)) (blkQ v) hs' F')) ∧
      (r - 1 ≠ 0 → p' = p ∧ r' = r - 1) := by
  have hj : c - 1 < (qbfs ts).length := by omega
  rw [List.getElem?_map, List.getElem?_eq_getElem hj, Option.map_some, Option.some.injEq] at hx
  subst hx
  obtain ⟨s', hs', e, hRs'⟩ := hcons _ _ _ _ hRs
  obtain ⟨A', e'⟩ := fr s _ _ F _ _ _ A e
  generalize ht : (qbfs ts)[c - 1] = t at *
  have hLt : (qbfs ts)[c - 1]? = some t := by rw [List.getElem?_eq_getElem hj, ht]
  -- there is room under the current parent
  have hrpos : r ≠ 0 := by
    intro e0
    have h1 := hr0 e0
    have h2 := lt_off (ts := ts) (c := c) hc1 (by omega)
    rw [← h1, off] at h2
    omega
  obtain ⟨F', run, B', hU', hup', hsz', hdat'⟩ := appendChild_ok (h := hs') B.b (p := p) (c := c) (by omega) (by omega)
    ((B.used p).mpr hpc) (by rw [B.used]; omega) t.data (szOf t)
  have hne : ∀ {i}, i ≠ c → base + i ≠ base + c := by intro i hi e; omega
  have FI : FInv F' v base (upd K (base + p) (K (base + p) ++ [base + c])) ts dat (c + 1) := by
    refine ⟨B', ?_, ?_, ?_, ?_, ?_, ?_, ?_⟩
    · intro i
      rw [hU', B.used]
      constructor
      · rintro (h | h)
        · omega
        · have : i = c := Nat.add_left_cancel h
          omega
      · intro h
        by_cases hic : i = c
        · right; rw [hic]
        · left; omega
    · rw [hup', upd_of_ne _ _ (by simpa using hne (i := 0) (by omega))]; exact B.up0
    · intro i h1 h2
      rw [hup']
      by_cases hic : i = c
      · rw [hic]; simp
      · rw [upd_of_ne _ _ (hne hic)]; exact B.upN i h1 (by omega)
    · rw [hdat', upd_of_ne _ _ (by simpa using hne (i := 0) (by omega))]; exact B.dat0
    · rw [hsz', upd_of_ne _ _ (by simpa using hne (i := 0) (by omega))]; exact B.sz0
    · intro j u hu hjc
      rw [hsz', hdat']
      by_cases hjc' : j + 1 = c
      · have : j = c - 1 := by omega
        rw [this, hLt] at hu
        rw [hjc']
        simp [Option.some.inj hu]
      · rw [upd_of_ne _ _ (hne hjc'), upd_of_ne _ _ (hne hjc')]
        exact B.slot j u hu (by omega)
    · intro i hi
      by_cases hic : i = c
      · subst hic
        have h1 : base + i ≠ base + p := by intro e; omega
        have h2 := lt_off (ts := ts) (c := i) hc1 (by omega)
        rw [upd_of_ne _ _ h1]
        have : K (base + i) = [] := by
          rw [List.eq_nil_iff_forall_not_mem]
          intro x hx
          have := (B.b.l.mem _ x).mp hx
          have := B.b.l.upU _ x this.1 (by simp) this.2.2
          rw [B.used] at this; omega
        rw [this, show min _ (i + 1 - off ts (qbfs ts) i) = 0 by omega]
        rfl
      · by_cases hip : i = p
        · subst hip
          rw [upd_self, B.kids i (by omega)]
          have e1 : min (slotKids ts (qbfs ts) i).length (c - off ts (qbfs ts) i) = (slotKids ts (qbfs ts) i).length - r := by omega
          have e2 : min (slotKids ts (qbfs ts) i).length (c + 1 - off ts (qbfs ts) i) = (slotKids ts (qbfs ts) i).length - r + 1 := by omega
          rw [e1, e2, List.range'_concat]
          congr 2
          omega
        · have h1 : base + i ≠ base + p := by intro e; omega
          rw [upd_of_ne _ _ h1, B.kids i (by omega)]
          congr 1
          rcases Nat.lt_or_gt_of_ne hip with h2 | h2
          · have := off_lt (ts := ts) (L := qbfs ts) h2
            omega
          · have := off_lt (ts := ts) (L := qbfs ts) h2
            omega
  by_cases hr1 : r - 1 = 0
  · obtain ⟨p', r', e2, g1, g2, g3, g4⟩ := fillInner_ok (hs := hs') FI (by omega) (c + 1) p hpc (by omega) (by omega)
    refine ⟨s', hs', F', _, p', r', ?_, FI, A', by omega, g3, g2, (fun e => by rw [g4 e]), hRs', e, e', run, hrpos, fun _ => e2,
      fun h => absurd hr1 h⟩
    simp only [fillLoop, M.bind_apply, e', Res.bind_ok, run, hrpos, if_false, hr1, if_true, e2]
  · refine ⟨s', hs', F', _, p, r - 1, ?_, FI, A', by omega, by omega, by omega, (fun e => absurd e hr1), hRs', e, e', run, hrpos,
      fun h => absurd h hr1, fun _ => ⟨rfl, rfl⟩⟩
    simp only [fillLoop, M.bind_apply, e', Res.bind_ok, run, hrpos, if_false, hr1]

theorem fillLoop_ok {nxt : σ → M α (Option (α × Size) × σ)} {R : σ → Heap α → List (α × Size) → Prop} (hR : SrcOK nxt R)
    {v base : Nat} {ts : List (RTree α)} {dat : Data α} :
    ∀ (k : Nat) (s : σ) (p c r : Nat) (F hs : Heap α) (K : Addr → List Addr), FInv F v base K ts dat c → c ≤ (qbfs ts).length + 1 → 1 ≤ c →
    Avoid (blkP base ((qbfs ts).length + 1)) (blkQ v) hs →
    (qbfs ts).length + 1 < c + k → p < c → off ts (qbfs ts) p + (slotKids ts (qbfs ts) p).length = c + r →
    r ≤ (slotKids ts (qbfs ts) p).length → (r = 0 → p + 1 = c) →
    R s hs (((qbfs ts).drop (c - 1)).map (fun t => (t.data, szOf t))) →
    ∃ s' hs' F' K', fillLoop nxt v k s p c r (join (blkP base ((qbfs ts).length + 1)) (blkQ v) hs F) =
        .ok s' (join (blkP base ((qbfs ts).length + 1)) (blkQ v) hs' F') ∧
      FInv F' v base K' ts dat ((qbfs ts).length + 1) ∧ Avoid (blkP base ((qbfs ts).length + 1)) (blkQ v) hs' ∧ R s' hs' [] := by
  intro k
  induction k with
  | zero => intros; omega
  | succ k ih =>
    intro s p c r F hs K B hcn hc1 A hk hpc hoff hr hr0 hRs
    have fr := hR.framed s
    by_cases hfin : c = (qbfs ts).length + 1
    · -- exhausted
      have : (qbfs ts).drop (c - 1) = [] := by
        rw [List.drop_eq_nil_iff]; omega
      rw [this, List.map_nil] at hRs
      obtain ⟨s', hs', e, hRs'⟩ := hR.nil _ _ hRs
      obtain ⟨A', e'⟩ := fr _ _ F _ _ _ A e
      refine ⟨s', hs', F, K, ?_, hfin ▸ B, A', hRs'⟩
      simp only [fillLoop, M.bind_apply, e', Res.bind_ok, M.pure_apply]
    · have hj : c - 1 < (qbfs ts).length := by omega
      rw [List.drop_eq_getElem_cons hj, List.map_cons] at hRs
      obtain ⟨s', hs', F', K', p', r', e, FI, A', g1, g2, g3, g4, hRs', -⟩ := fillLoop_one (k := k) hR.framed hR.cons B hfin hcn hc1 A hpc
        hoff hr hr0 (by simp [List.getElem?_eq_getElem hj]) hRs
      have hdrop : (qbfs ts).drop (c - 1 + 1) = (qbfs ts).drop (c + 1 - 1) := by congr 1; omega
      rw [hdrop] at hRs'
      rw [e]
      exact ih s' p' (c + 1) r' F' hs' K' FI (by omega) (by omega) A' (by omega) g1 g2 g3 g4 hRs'

/-- The source panics before all slots are filled: the heap around the block is as the source left it. -/
theorem fillLoop_panic {nxt : σ → M α (Option (α × Size) × σ)} {R : σ → Heap α → List (α × Size) → Prop} {E : Heap α → Prop}
    (fr : ∀ s, Framed (nxt s)) (hcons : ∀ s h x xs, R s h (x :: xs) → ∃ s' h', nxt s h = .ok (some x, s') h' ∧ R s' h' xs)
    (hnil : ∀ s h, R s h [] → ∃ h', E h' ∧ ∀ P Q F, Avoid P Q h → Avoid P Q h' ∧ nxt s (join P Q h F) = .err .panic (join P Q h' F))
    {v base : Nat} {ts : List (RTree α)} {dat : Data α} :
    ∀ (k : Nat) (s : σ) (p c r j : Nat) (F hs : Heap α) (K : Addr → List Addr), FInv F v base K ts dat c → c + j < (qbfs ts).length + 1 → 1 ≤ c →
    Avoid (blkP base ((qbfs ts).length + 1)) (blkQ v) hs →
    (qbfs ts).length + 1 < c + k → p < c → off ts (qbfs ts) p + (slotKids ts (qbfs ts) p).length = c + r →
    r ≤ (slotKids ts (qbfs ts) p).length → (r = 0 → p + 1 = c) →
    R s hs ((((qbfs ts).map (fun t => (t.data, szOf t))).drop (c - 1)).take j) →
    ∃ hs' F' K', fillLoop nxt v k s p c r (join (blkP base ((qbfs ts).length + 1)) (blkQ v) hs F) =
        .err .panic (join (blkP base ((qbfs ts).length + 1)) (blkQ v) hs' F') ∧
      FInv F' v base K' ts dat (c + j) ∧ Avoid (blkP base ((qbfs ts).length + 1)) (blkQ v) hs' ∧ E hs' := by
  intro k
  induction k with
  | zero => intros; omega
  | succ k ih =>
    intro s p c r j F hs K B hcn hc1 A hk hpc hoff hr hr0 hRs
    cases j with
    | zero =>
      rw [List.take_zero] at hRs
      obtain ⟨hs', hE, hf⟩ := hnil _ _ hRs
      obtain ⟨A', e⟩ := hf _ _ F A
      refine ⟨hs', F, K, ?_, B, A', hE⟩
      simp only [fillLoop, M.bind_apply, e, Res.bind_err]
    | succ j =>
      have hj : c - 1 < ((qbfs ts).map (fun t => (t.data, szOf t))).length := by rw [List.length_map]; omega
      rw [List.drop_eq_getElem_cons hj, List.take_succ_cons] at hRs
      obtain ⟨s', hs', F', K', p', r', e, FI, A', g1, g2, g3, g4, hRs', -⟩ := fillLoop_one (k := k) fr hcons B (by omega) (by omega) hc1 A hpc
        hoff hr hr0 (List.getElem?_eq_getElem hj) hRs
      have hdrop : c - 1 + 1 = c + 1 - 1 := by omega
      rw [hdrop] at hRs'
      rw [e, show c + (j + 1) = c + 1 + j by omega]
      exact ih s' p' (c + 1) r' j F' hs' K' FI (by omega) (by omega) A' (by omega) g1 g2 g3 g4 hRs'

/-- What a completed block looks like. -/
structure Filled (F : Heap α) (v base n : Nat) (K : Addr → List Addr) (ts : List (RTree α)) (dat : Data α) : Prop where
  b : BInv F v base n K
  all : ∀ a, blkP base n a = true → F.Used a
  sz : ∀ a, F.Used a → F.size a = ⟨(K a).length, dsum F.size (K a)⟩
  root : F.up base = none
  only : ∀ a, F.Used a → F.up a = none → a = base
  dat : F.data base = dat
  den : DenL F.val K (K base) ts
  isVal : ∀ a, F.Used a → a ≠ base → F.IsVal a

theorem FInv.filled {F : Heap α} {v base : Nat} {K : Addr → List Addr} {ts : List (RTree α)} {dat : Data α} (B : FInv F v base K ts dat ((qbfs ts).length + 1)) :
    Filled F v base ((qbfs ts).length + 1) K ts dat := by
  have hkids : ∀ i : Nat, i < (qbfs ts).length + 1 → K (base + i) =
      List.range' (base + off ts (qbfs ts) i) (slotKids ts (qbfs ts) i).length := by
    intro i hi
    rw [B.kids i hi]
    congr 1
    have h1 := off_lt (ts := ts) (L := qbfs ts) (i := i) (j := (qbfs ts).length + 1) hi
    rw [off_last] at h1
    omega
  have hoff1 : ∀ i, 1 ≤ off ts (qbfs ts) i := fun i => off_mono (i := 0) (Nat.zero_le _)
  -- labelling of slots
  let sub : Addr → RTree α → Prop := fun a t => ∃ j : Nat, a = base + (j + 1) ∧ (qbfs ts)[j]? = some t
  have hchild : ∀ i : Nat, i < (qbfs ts).length + 1 → List.Forall₂ sub (K (base + i)) (slotKids ts (qbfs ts) i) := by
    intro i hi
    rw [hkids i hi, List.forall₂_iff_get]
    refine ⟨by simp, ?_⟩
    intro k h1 h2
    refine ⟨off ts (qbfs ts) i + k - 1, ?_, ?_⟩
    · simp only [List.get_eq_getElem, List.getElem_range']
      have := hoff1 i
      aomega
    · exact slot_child hi (by simp [List.getElem?_eq_getElem])
  have hden : ∀ t a, sub a t → Den F.val K a t := by
    refine den_of_plan sub ?_
    rintro a t ⟨j, rfl, hj⟩
    have hjl := (List.getElem?_eq_some_iff.mp hj).1
    refine ⟨?_, ?_⟩
    · simp [Heap.val, (B.slot j t hj (by omega)).2, Data.val?]
    · have := hchild (j + 1) (by omega)
      simpa [slotKids, hj] using this
  have hdenL : ∀ i : Nat, i < (qbfs ts).length + 1 → DenL F.val K (K (base + i)) (slotKids ts (qbfs ts) i) := by
    intro i hi
    rw [DenL_forall₂]
    exact (hchild i hi).imp (fun a t h => hden t a h)
  have hidx : ∀ a, F.Used a → ∃ i : Nat, i < (qbfs ts).length + 1 ∧ a = base + i := by
    intro a ha
    have := (B.b.live a).mp ha.1
    exact ⟨a - base, by aomega, by aomega⟩
  refine ⟨B.b, ?_, ?_, B.up0, ?_, B.dat0, hdenL 0 (by omega), ?_⟩
  · intro a ha
    have := blkP_iff.mp ha
    have h1 := (B.used (a - base)).mpr (by omega)
    rwa [Nat.add_sub_cancel' this.1] at h1
  · intro a ha
    refine sz_of_den (val := F.val) (U := F.Used) (fun a c hc => ((B.b.l.mem a c).mp hc).1) ?_ ha
    intro b hb
    obtain ⟨i, hi, rfl⟩ := hidx b hb
    refine ⟨_, hdenL i hi, ?_⟩
    cases i with
    | zero => exact B.sz0
    | succ j =>
      have hj : j < (qbfs ts).length := by omega
      rw [(B.slot j _ (List.getElem?_eq_getElem hj) hi).1]
      simp [szOf, slotKids, List.getElem?_eq_getElem hj]
  · intro a ha hu
    obtain ⟨i, hi, rfl⟩ := hidx a ha
    cases i with
    | zero => rfl
    | succ j => exact absurd hu (B.upN (j + 1) (by omega) hi)
  · intro a ha hne
    obtain ⟨i, hi, rfl⟩ := hidx a ha
    cases i with
    | zero => exact absurd rfl hne
    | succ j =>
      have hj : j < (qbfs ts).length := by omega
      simp [Heap.IsVal, (B.slot j _ (List.getElem?_eq_getElem hj) hi).2, Data.val?]

end Trees
