import Verif.Props.TupleVisit
import Verif.Proof.FromBfs
/-
`NodeVec::construct_tree`, `construct_forest`: filling a block from a tuple.
-/
namespace Trees
set_option linter.unusedSimpArgs false
variable {α : Type}
open RTree Tup

/-- The effect of adding the trees `ts` as last children of the node `p` of a block. `N`: the new nodes, `cs`: the
new children of `p`. -/
structure FillPost (v base n : Nat) (F : Heap α) (K : Addr → List Addr) (F' : Heap α) (K' : Addr → List Addr)
    (p : Addr) (N : Addr → Prop) (cs : List Addr) (ts : List (RTree α)) : Prop where
  b : BInv F' v base n K'
  used : ∀ a, F'.Used a ↔ F.Used a ∨ N a
  dis : ∀ a, N a → ¬ F.Used a
  kp : K' p = K p ++ cs
  kold : ∀ a, F.Used a → a ≠ p → K' a = K a
  old : ∀ a, F.Used a → F'.up a = F.up a ∧ F'.size a = F.size a ∧ F'.data a = F.data a
  csN : ∀ c ∈ cs, N c
  new : ∀ a, N a → F'.up a ≠ none ∧ F'.IsVal a ∧ ∃ us, DenL F'.val K' (K' a) us ∧ F'.size a = ⟨us.length, countL us⟩
  den : DenL F'.val K' cs ts

section
variable {v base n : Nat} {F F1 F2 : Heap α} {K K1 K2 : Addr → List Addr} {p : Addr}
  {N N1 N2 : Addr → Prop} {cs cs1 cs2 : List Addr} {ts ts1 ts2 : List (RTree α)}

theorem FillPost.refl (B : BInv F v base n K) : FillPost v base n F K F K p (fun _ => False) [] [] :=
  ⟨B, fun a => by simp, fun a h => h.elim, by simp, fun _ _ _ => rfl, fun _ _ => ⟨rfl, rfl, rfl⟩, by simp, fun _ h => h.elim, by simp⟩

theorem FillPost.closed (Q : FillPost v base n F K F1 K1 p N cs ts) (hF : ∀ a c, F.Used c → F.up c = some a → F.Used a)
    {a c : Addr} (ha : N a) (hc : c ∈ K1 a) : N c := by
  have h1 := (Q.b.l.mem a c).mp hc
  rcases (Q.used c).mp h1.1 with h2 | h2
  · have := (Q.old c h2).1
    rw [h1.2.2] at this
    exact absurd (hF a c h2 this.symm) (Q.dis a ha)
  · exact h2

theorem FillPost.reach (Q : FillPost v base n F K F1 K1 p N cs ts) (hF : ∀ a c, F.Used c → F.up c = some a → F.Used a)
    {a c : Addr} (hr : Reach K1 a c) (ha : N a) : N c := by
  have : ∀ a b, Reach K1 a b → N a → N b := by
    intro a b hr
    induction hr with
    | refl => exact id
    | step h1 _ ih => exact fun ha => ih (Q.closed hF ha h1)
  exact this _ _ hr ha

theorem val_eq_of_data {F F' : Heap α} {a : Addr} (h : F'.data a = F.data a) : F'.val a = F.val a := by simp [Heap.val, h]

theorem BInv.upUsed (B : BInv F v base n K) (a c : Addr) (hc : F.Used c) (h : F.up c = some a) : F.Used a :=
  B.l.upU a c hc (by simp) h

/-- One batch after the other, below the same node. -/
theorem FillPost.trans (B : BInv F v base n K) (hp : F.Used p) (Q1 : FillPost v base n F K F1 K1 p N1 cs1 ts1)
    (Q2 : FillPost v base n F1 K1 F2 K2 p N2 cs2 ts2) :
    FillPost v base n F K F2 K2 p (fun a => N1 a ∨ N2 a) (cs1 ++ cs2) (ts1 ++ ts2) := by
  have hN1 : ∀ a, N1 a → F1.Used a ∧ a ≠ p := fun a h => ⟨(Q1.used a).mpr (.inr h), fun e => Q1.dis a h (e ▸ hp)⟩
  have hU1 : ∀ a, F.Used a → F1.Used a := fun a h => (Q1.used a).mpr (.inl h)
  have keep : ∀ {l us}, (∀ c ∈ l, N1 c) → DenL F1.val K1 l us → DenL F2.val K2 l us := by
    intro l us hl hd
    refine hd.congr (fun c hc x hr => ?_)
    have hx := hN1 x (Q1.reach B.upUsed hr (hl c hc))
    exact ⟨Q2.kold x hx.1 hx.2, val_eq_of_data (Q2.old x hx.1).2.2⟩
  refine ⟨Q2.b, ?_, ?_, ?_, ?_, ?_, ?_, ?_, ?_⟩
  · intro a; rw [Q2.used, Q1.used, or_assoc]
  · rintro a (h | h) hu
    · exact Q1.dis a h hu
    · exact Q2.dis a h (hU1 a hu)
  · rw [Q2.kp, Q1.kp, List.append_assoc]
  · intro a h1 h2; rw [Q2.kold a (hU1 a h1) h2, Q1.kold a h1 h2]
  · intro a h
    obtain ⟨a1, a2, a3⟩ := Q1.old a h
    obtain ⟨b1, b2, b3⟩ := Q2.old a (hU1 a h)
    exact ⟨b1.trans a1, b2.trans a2, b3.trans a3⟩
  · intro c hc
    rcases List.mem_append.mp hc with h | h
    · exact .inl (Q1.csN c h)
    · exact .inr (Q2.csN c h)
  · rintro a (h | h)
    · obtain ⟨h1, h2, us, h3, h4⟩ := Q1.new a h
      obtain ⟨b1, b2, b3⟩ := Q2.old a (hN1 a h).1
      refine ⟨by rw [b1]; exact h1, by simpa [Heap.IsVal, b3] using h2, us, ?_, by rw [b2]; exact h4⟩
      rw [Q2.kold a (hN1 a h).1 (hN1 a h).2]
      exact keep (fun c hc => Q1.closed B.upUsed h hc) h3
    · exact Q2.new a h
  · exact (keep Q1.csN Q1.den).append Q2.den

/-- A new child with its own children. -/
theorem FillPost.node {c : Addr} {d : α} (B : BInv F v base n K) (hp : F.Used p) (hc : ¬ F.Used c)
    (hK1 : K1 = upd K p (K p ++ [c])) (hU : ∀ a, F1.Used a ↔ F.Used a ∨ a = c)
    (hup : F1.up = upd F.up c (some p)) (hsz : F1.size = upd F.size c ⟨ts.length, countL ts⟩)
    (hdt : F1.data = upd F.data c (.piled d v)) (Q : FillPost v base n F1 K1 F2 K2 c N cs ts) :
    FillPost v base n F K F2 K2 p (fun a => a = c ∨ N a) [c] [.node d ts] := by
  have hpc : p ≠ c := fun e => hc (e ▸ hp)
  have hcU : F1.Used c := (hU c).mpr (.inr rfl)
  have hKc : K c = [] := by
    rw [List.eq_nil_iff_forall_not_mem]
    intro x hx
    have := (B.l.mem _ x).mp hx
    exact hc (B.upUsed _ x this.1 this.2.2)
  obtain ⟨c1, c2, c3⟩ := Q.old c hcU
  simp only [hup, hsz, hdt, upd_self] at c1 c2 c3
  have hk2c : K2 c = cs := by rw [Q.kp, hK1]; simp [upd_apply, Ne.symm hpc, hKc]
  refine ⟨Q.b, ?_, ?_, ?_, ?_, ?_, ?_, ?_, ?_⟩
  · intro a; rw [Q.used, hU, or_assoc]
  · rintro a (rfl | h) hu
    · exact hc hu
    · exact Q.dis a h ((hU a).mpr (.inl hu))
  · rw [Q.kold p ((hU p).mpr (.inl hp)) hpc, hK1, upd_self]
  · intro a h1 h2
    have hac : a ≠ c := fun e => hc (e ▸ h1)
    rw [Q.kold a ((hU a).mpr (.inl h1)) hac, hK1]
    simp [upd_apply, h2]
  · intro a h
    have hac : a ≠ c := fun e => hc (e ▸ h)
    obtain ⟨a1, a2, a3⟩ := Q.old a ((hU a).mpr (.inl h))
    rw [a1, a2, a3, hup, hsz, hdt]
    simp [upd_apply, hac]
  · simp
  · rintro a (rfl | h)
    · refine ⟨by rw [c1]; simp, by simp [Heap.IsVal, c3, Data.val?], ts, by rw [hk2c]; exact Q.den, c2⟩
    · exact Q.new a h
  · simp only [DenL_cons, Den_node, DenL_nil, and_true, hk2c]
    exact ⟨by simp [Heap.val, c3, Data.val?], Q.den⟩

end

/-! ### The cursor -/

theorem fd_cons (t : Tup α) (ts : List (Tup α)) (k : Nat) :
    forestDescendants (t :: ts) k = forestDescendants [t] k + forestDescendants ts k := by
  cases k <;> simp [forestDescendants, descSum]; omega

theorem fd_nil (k : Nat) : forestDescendants ([] : List (Tup α)) k = 0 := by
  cases k <;> simp [forestDescendants, descSum]

theorem fd_elems (t : Tup α) (k : Nat) : forestDescendants [t] (k + 1) = forestDescendants t.elems k := by
  cases t with
  | bare d => simp [elems, fd_nil]; simp [forestDescendants, descSum, descendants]
  | tup d ks => cases k <;> simp [forestDescendants, descSum, elems, descendants]

theorem fd_zero (ks : List (Tup α)) : forestDescendants ks 0 = ks.length := rfl

/-- The last tree leaves the cursor clean. -/
def cleanL (ks : List (Tup α)) : Bool :=
  match ks.getLast? with
  | some k => k.isLeaf || k.leafLast
  | none => true

def lastLeaf (l0 : Bool) (ks : List (Tup α)) : Bool :=
  match ks.getLast? with
  | some k => k.isLeaf
  | none => l0

/-- The slots where the trees `ks` go. -/
def Slot (base : Nat) (o : Nat → Nat) (ks : List (Tup α)) (a : Addr) : Prop :=
  ∃ k i, i < forestDescendants ks k ∧ a = base + (o k + i)

/-- Filling works for `ks`. -/
def FillOK (g : Bool) (v base n : Nat) (h : Heap α) (ks : List (Tup α)) : Prop :=
  ∀ (δ p : Nat) (F : Heap α) (K : Addr → List Addr) (l0 : Bool) (offs : List Nat),
    BInv F v base n K → p < n → F.Used (base + p) → 1 ≤ δ → offs[δ - 1]? = some p →
    (∀ k, 0 < forestDescendants ks k → δ + k < offs.length) →
    (∀ k i, i < forestDescendants ks k → offs.getD (δ + k) 0 + i < n ∧ ¬ F.Used (base + (offs.getD (δ + k) 0 + i))) →
    (∀ k k' i i', i < forestDescendants ks k → i' < forestDescendants ks k' →
      offs.getD (δ + k) 0 + i = offs.getD (δ + k') 0 + i' → k = k') →
    ∃ F' K' c', placeAll g v ⟨l0, p, δ, offs⟩ (preorderWithSizeHintL ks) (join (blkP base n) (blkQ v) h F) =
        .ok c' (join (blkP base n) (blkQ v) h F') ∧
      FillPost v base n F K F' K' (base + p) (Slot base (fun k => offs.getD (δ + k) 0) ks)
        (List.range' (base + offs.getD δ 0) ks.length) (toTreeL ks) ∧
      c'.depth = δ ∧ c'.leaf = lastLeaf l0 ks ∧
      (cleanL ks = true → c'.parent = p ∧ c'.offsets.length = offs.length ∧
        ∀ i, c'.offsets.getD i 0 = offs.getD i 0 + if δ ≤ i then forestDescendants ks (i - δ) else 0)

theorem placeAll_append (g : Bool) (v : Nat) (xs ys : List (Visit α × Size)) : ∀ (c : Cursor) (h : Heap α),
    placeAll g v c (xs ++ ys) h = (placeAll g v c xs >>= fun c' => placeAll g v c' ys) h := by
  induction xs with
  | nil => intro c h; simp [placeAll]
  | cons x xs ih =>
    intro c h
    simp only [List.cons_append, placeAll, M.bind_apply]
    cases hx : placeVisit g v c x.1 x.2 h with
    | ok a b => simp only [Res.bind_ok]; rw [ih]; rfl
    | err e b => rfl

section
variable {g : Bool} {v base n : Nat} {h : Heap α}

theorem FillPost.congrN {F F' : Heap α} {K K' : Addr → List Addr} {p : Addr} {N N' : Addr → Prop} {cs cs'} {ts : List (RTree α)}
    (Q : FillPost v base n F K F' K' p N cs ts) (e : ∀ a, N a ↔ N' a) (e2 : cs = cs') : FillPost v base n F K F' K' p N' cs' ts := by
  have : N = N' := funext fun a => propext (e a)
  subst this; subst e2; exact Q

theorem fillOK_nil : FillOK g v base n h ([] : List (Tup α)) := by
  intro δ p F K l0 offs B _ _ _ _ _ _ _
  refine ⟨F, K, _, rfl, ?_, rfl, rfl, fun _ => ⟨rfl, rfl, ?_⟩⟩
  · refine (FillPost.refl B).congrN ?_ rfl
    intro a; simp [Slot, fd_nil]
  · intro i; simp [fd_nil]

theorem fillOK_cons {t : Tup α} {ts : List (Tup α)} (h1 : FillOK g v base n h [t]) (h2 : FillOK g v base n h ts)
    (hc : ts = [] ∨ cleanL [t] = true) : FillOK g v base n h (t :: ts) := by
  rcases hc with rfl | hc
  · exact h1
  intro δ p F K l0 offs B hp hU hδ ho hlen hfree hdisj
  have hle : ∀ k, forestDescendants [t] k ≤ forestDescendants (t :: ts) k := fun k => by have := fd_cons t ts k; omega
  have hle2 : ∀ k, forestDescendants ts k ≤ forestDescendants (t :: ts) k := fun k => by have := fd_cons t ts k; omega
  obtain ⟨F1, K1, c1, e1, Q1, d1, l1, cl1⟩ := h1 δ p F K l0 offs B hp hU hδ ho
    (fun k hk => hlen k (Nat.lt_of_lt_of_le hk (hle k)))
    (fun k i hi => hfree k i (Nat.lt_of_lt_of_le hi (hle k)))
    (fun k k' i i' hi hi' e => hdisj k k' i i' (Nat.lt_of_lt_of_le hi (hle k)) (Nat.lt_of_lt_of_le hi' (hle k')) e)
  obtain ⟨cp, cl, co⟩ := cl1 hc
  have hδl : δ - 1 < offs.length := by
    rw [List.getElem?_eq_some_iff] at ho; exact ho.1
  have co' : ∀ k, c1.offsets.getD (δ + k) 0 = offs.getD (δ + k) 0 + forestDescendants [t] k := by
    intro k; rw [co]; simp
  have hU1 : F1.Used (base + p) := (Q1.used _).mpr (.inl hU)
  have ho1 : c1.offsets[δ - 1]? = some p := by
    have h3 := co (δ - 1)
    rw [if_neg (by omega), List.getD_eq_getElem?_getD, List.getD_eq_getElem?_getD, ho] at h3
    rw [List.getElem?_eq_getElem (by omega)] at h3 ⊢
    simpa using h3
  obtain ⟨F2, K2, c2, e2, Q2, d2, l2, cl2⟩ := h2 δ p F1 K1 c1.leaf c1.offsets Q1.b hp hU1 hδ ho1
    (fun k hk => by rw [cl]; exact hlen k (Nat.lt_of_lt_of_le hk (hle2 k)))
    (by
      intro k i hi
      rw [co']
      have hi' : forestDescendants [t] k + i < forestDescendants (t :: ts) k := by have := fd_cons t ts k; omega
      obtain ⟨a1, a2⟩ := hfree k _ hi'
      refine ⟨by omega, ?_⟩
      rw [Q1.used]
      rintro (hu | ⟨k', i', hi2, e⟩)
      · exact a2 (by rwa [← Nat.add_assoc (offs.getD (δ + k) 0)])
      · have e' : offs.getD (δ + k) 0 + (forestDescendants [t] k + i) = offs.getD (δ + k') 0 + i' := by
          have e : base + (offs.getD (δ + k) 0 + forestDescendants [t] k + i) = base + (offs.getD (δ + k') 0 + i') := e
          omega
        have := hdisj k k' _ i' hi' (Nat.lt_of_lt_of_le hi2 (hle k')) e'
        subst this
        omega)
    (by
      intro k k' i i' hi hi' e
      rw [co', co'] at e
      exact hdisj k k' (forestDescendants [t] k + i) (forestDescendants [t] k' + i') (by have := fd_cons t ts k; omega)
        (by have := fd_cons t ts k'; omega) (by omega))
  have hc1 : c1 = ⟨c1.leaf, p, δ, c1.offsets⟩ := by rw [← cp, ← d1]
  refine ⟨F2, K2, c2, ?_, ?_, d2, ?_, ?_⟩
  · have e1' : placeAll g v ⟨l0, p, δ, offs⟩ (preorderWithSizeHint t) (join (blkP base n) (blkQ v) h F) =
        .ok c1 (join (blkP base n) (blkQ v) h F1) := by
      simpa [preorderWithSizeHintL] using e1
    rw [preorderWithSizeHintL, placeAll_append, M.bind_apply, e1', Res.bind_ok, hc1]
    exact e2
  · refine (Q1.trans B hU Q2).congrN ?_ ?_
    · intro a
      simp only [Slot, co']
      constructor
      · rintro (⟨k, i, hi, rfl⟩ | ⟨k, i, hi, rfl⟩)
        · exact ⟨k, i, Nat.lt_of_lt_of_le hi (hle k), rfl⟩
        · exact ⟨k, forestDescendants [t] k + i, by have := fd_cons t ts k; omega, by aomega⟩
      · rintro ⟨k, i, hi, rfl⟩
        have := fd_cons t ts k
        by_cases hik : i < forestDescendants [t] k
        · exact .inl ⟨k, i, hik, rfl⟩
        · exact .inr ⟨k, i - forestDescendants [t] k, by omega, by aomega⟩
    · have := co' 0
      simp only [Nat.add_zero, fd_zero, List.length_singleton] at this
      rw [this]
      simp only [List.length_cons, List.length_nil, List.range'_succ, List.range'_zero, List.singleton_append, Nat.zero_add]
      rfl
  · rw [l2]
    cases ts with
    | nil => simp [lastLeaf, l1]
    | cons u us =>
      simp only [lastLeaf, List.getLast?_cons_cons]
      cases hg : (u :: us).getLast? with
      | none => simp at hg
      | some k => rfl
  · intro hcl
    have hcl' : cleanL ts = true := by
      cases ts with
      | nil => rfl
      | cons u us => simpa [cleanL, List.getLast?_cons_cons] using hcl
    obtain ⟨a1, a2, a3⟩ := cl2 hcl'
    refine ⟨a1, by rw [a2, cl], ?_⟩
    intro i
    rw [a3, co]
    by_cases hi : δ ≤ i
    · simp only [hi, if_true]; have := fd_cons t ts (i - δ); omega
    · simp [hi]

theorem idx_ok {xs : List Nat} {i x : Nat} (hx : xs[i]? = some x) (hh : Heap α) : idx xs i hh = .ok x hh := by
  simp [idx, hx]
theorem bump_ok {xs : List Nat} {i x : Nat} (hx : xs[i]? = some x) (hh : Heap α) : bump xs i hh = .ok (xs.set i (x + 1)) hh := by
  simp [bump, hx]

theorem preorderWithSizeHint_leaf {t : Tup α} (ht : t.isLeaf = true) :
    t.preorderWithSizeHint = [(.leaf t.item, t.size)] := by
  cases t with
  | bare d => rfl
  | tup d ks =>
    cases ks with
    | nil => rfl
    | cons k ks => simp [isLeaf, elems] at ht

theorem preorderWithSizeHint_branch {t : Tup α} (ht : t.isLeaf = false) :
    t.preorderWithSizeHint = (.branch t.item, t.size) :: preorderWithSizeHintL t.elems ++ [(.frame, t.size)] := by
  cases t with
  | bare d => simp [isLeaf, elems] at ht
  | tup d ks =>
    cases ks with
    | nil => simp [isLeaf, elems] at ht
    | cons k ks => rw [preorderWithSizeHint, if_neg (by simp [Tup.size])]; rfl

theorem toTree_eq (t : Tup α) : t.toTree = .node t.item (toTreeL t.elems) := by cases t <;> rfl

theorem size_szOf (t : Tup α) : t.size = ⟨(toTreeL t.elems).length, countL (toTreeL t.elems)⟩ := by
  rw [Proof.size_eq, toTree_eq]; simp [RTree.sizeHint]

theorem fillOK_single {t : Tup α} (hk : FillOK g v base n h t.elems) : FillOK g v base n h [t] := by
  intro δ p F K l0 offs B hp hU hδ ho hlen hfree hdisj
  have hδl := hlen 0 (by simp [forestDescendants])
  rw [Nat.add_zero] at hδl
  obtain ⟨hcn, hcU⟩ := hfree 0 0 (by simp [forestDescendants])
  simp only [Nat.add_zero] at hcn hcU
  have hod : offs[δ]? = some (offs.getD δ 0) := by simp [List.getD_eq_getElem?_getD, List.getElem?_eq_getElem hδl]
  obtain ⟨F1, e1, B1, hU1, hup, hsz, hdt⟩ := appendChild_ok (h := h) B hp hcn hU hcU t.item t.size
  rw [size_szOf] at hsz
  by_cases hl : t.isLeaf = true
  · have hel : t.elems = [] := by simpa [isLeaf] using hl
    rw [hel] at hsz
    refine ⟨F1, (upd K (base + p) (K (base + p) ++ [base + offs.getD δ 0])), ⟨true, p, δ, offs.set δ (offs.getD δ 0 + 1)⟩, ?_, ?_, rfl, by simp [lastLeaf, hl], fun _ => ⟨rfl, by simp, ?_⟩⟩
    · simp only [preorderWithSizeHintL, preorderWithSizeHint_leaf hl, List.append_nil, placeAll, placeVisit, M.bind_apply,
        idx_ok hod, bump_ok hod, Res.bind_ok, e1, M.pure_apply]
    · have Q := FillPost.node (d := t.item) (ts := toTreeL t.elems) B hU hcU rfl hU1 hup (by rw [hel]; exact hsz) hdt
        (by rw [hel]; exact FillPost.refl B1)
      simp only [toTreeL, toTree_eq]
      refine Q.congrN ?_ (by simp)
      intro a
      simp only [Slot, or_false]
      constructor
      · rintro rfl; exact ⟨0, 0, by simp [forestDescendants], by simp⟩
      · rintro ⟨k, i, hi, rfl⟩
        cases k with
        | zero => have : i = 0 := by simpa [forestDescendants] using hi
                  subst this; simp
        | succ k => rw [fd_elems, hel, fd_nil] at hi; omega
    · intro i
      rw [List.getD_eq_getElem?_getD, List.getD_eq_getElem?_getD, List.getElem?_set]
      by_cases hi : δ = i
      · subst hi; simp [hδl, forestDescendants, List.getElem?_eq_getElem hδl]
      · simp only [hi, if_false]
        split
        · have h1 : i - δ = (i - δ - 1) + 1 := by omega
          rw [h1, fd_elems, hel, fd_nil]; rfl
        · rfl
  · have hl : t.isLeaf = false := by simpa using hl
    have hne : t.elems ≠ [] := by simpa [isLeaf] using hl
    have hc1 : F1.Used (base + offs.getD δ 0) := (hU1 _).mpr (.inr rfl)
    have hs : ∀ k, δ + 1 + k = δ + (k + 1) := by intro k; omega
    obtain ⟨F2, K2, c2, e2, Q2, d2, l2, cl2⟩ := hk (δ + 1) (offs.getD δ 0) F1 _ l0 offs B1 hcn hc1 (by omega) (by simpa using hod)
      (fun k hk => by rw [hs]; exact hlen (k + 1) (by rw [fd_elems]; exact hk))
      (by
        intro k i hi
        rw [← fd_elems] at hi
        obtain ⟨a1, a2⟩ := hfree (k + 1) i hi
        rw [hs]
        refine ⟨a1, ?_⟩
        rw [hU1]
        rintro (hu | e)
        · exact a2 hu
        · have e : base + (offs.getD (δ + (k + 1)) 0 + i) = base + offs.getD δ 0 := e
          have := hdisj (k + 1) 0 i 0 hi (by simp [forestDescendants]) (by simp only [Nat.add_zero]; omega)
          omega)
      (by
        intro k k' i i' hi hi' e
        rw [← fd_elems] at hi hi'
        rw [hs, hs] at e
        have := hdisj _ _ _ _ hi hi' e
        omega)
    have Q := FillPost.node (d := t.item) (ts := toTreeL t.elems) B hU hcU rfl hU1 hup hsz hdt Q2
    have Q' : FillPost v base n F K F2 K2 (base + p) (Slot base (fun k => offs.getD (δ + k) 0) [t])
        (List.range' (base + offs.getD δ 0) [t].length) (toTreeL [t]) := by
      simp only [toTreeL, toTree_eq]
      refine Q.congrN ?_ (by simp)
      intro a
      simp only [Slot]
      constructor
      · rintro (rfl | ⟨k, i, hi, rfl⟩)
        · exact ⟨0, 0, by simp [forestDescendants], by simp⟩
        · exact ⟨k + 1, i, by rw [fd_elems]; exact hi, by rw [hs]⟩
      · rintro ⟨k, i, hi, rfl⟩
        cases k with
        | zero => have : i = 0 := by simpa [forestDescendants] using hi
                  subst this; simp
        | succ k => rw [fd_elems] at hi; exact .inr ⟨k, i, hi, by rw [hs]⟩
    have erun : placeAll g v ⟨l0, p, δ, offs⟩ (preorderWithSizeHintL [t]) (join (blkP base n) (blkQ v) h F) =
        placeVisit g v c2 .frame t.size (join (blkP base n) (blkQ v) h F2) := by
      have hb : placeVisit g v ⟨l0, p, δ, offs⟩ (.branch t.item) t.size (join (blkP base n) (blkQ v) h F) =
          .ok ⟨l0, offs.getD δ 0, δ + 1, offs⟩ (join (blkP base n) (blkQ v) h F1) := by
        simp only [placeVisit, M.bind_apply, idx_ok hod, Res.bind_ok, e1, M.pure_apply]
      simp only [preorderWithSizeHintL, preorderWithSizeHint_branch hl, List.append_nil, List.cons_append, placeAll, M.bind_apply]
      rw [hb, Res.bind_ok, placeAll_append, M.bind_apply, e2, Res.bind_ok]
      simp only [placeAll, M.bind_apply]
      cases placeVisit g v c2 .frame t.size (join (blkP base n) (blkQ v) h F2) <;> rfl
    have hleaf : c2.leaf = t.leafLast := by
      rw [l2]; simp only [lastLeaf, leafLast]
      cases hg : t.elems.getLast? with
      | none => simp [hne] at hg
      | some k => rfl
    by_cases hll : t.leafLast = true
    · have hcl : cleanL t.elems = true := by
        simp only [leafLast] at hll
        simp only [cleanL]
        cases hg : t.elems.getLast? with
        | none => rfl
        | some k => rw [hg] at hll; simp [hll]
      obtain ⟨cp, clen, co⟩ := cl2 hcl
      have hg2 : c2.offsets[δ]? = some (offs.getD δ 0) := by
        have := co δ
        rw [if_neg (by omega), Nat.add_zero] at this
        rw [← this, List.getD_eq_getElem?_getD, List.getElem?_eq_getElem (by omega)]; simp
      have hg1 : (c2.offsets.set δ (offs.getD δ 0 + 1))[δ - 1]? = some p := by
        have := co (δ - 1)
        rw [if_neg (by omega), Nat.add_zero, List.getD_eq_getElem?_getD, List.getD_eq_getElem?_getD, ho,
          List.getElem?_eq_getElem (by omega)] at this
        rw [List.getElem?_set, if_neg (by omega), List.getElem?_eq_getElem (by omega)]
        simpa using this
      refine ⟨F2, K2, ⟨false, p, δ, c2.offsets.set δ (offs.getD δ 0 + 1)⟩, ?_, Q', rfl, by simp [lastLeaf, hl], fun _ => ⟨rfl, by simp [clen], ?_⟩⟩
      · rw [erun]
        have h0 : ¬ δ + 1 = 0 := by omega
        have h1 : ¬ δ = 0 := by omega
        simp only [placeVisit, d2, h0, if_false, hleaf, hll, if_true, Nat.add_sub_cancel, M.bind_apply, bump_ok hg2, Res.bind_ok,
          h1, decide_false, Bool.and_false, Bool.false_eq_true, idx_ok hg1, M.pure_apply]
      · intro i
        rw [List.getD_eq_getElem?_getD, List.getElem?_set]
        by_cases hi : δ = i
        · subst hi
          simp [clen, hδl, forestDescendants]
        · have := co i
          rw [List.getD_eq_getElem?_getD] at this
          simp only [hi, if_false, this]
          by_cases hi2 : δ + 1 ≤ i
          · have h1 : i - δ = (i - (δ + 1)) + 1 := by omega
            rw [if_pos hi2, if_pos (by omega), h1, fd_elems]
          · rw [if_neg hi2, if_neg (by omega)]
    · refine ⟨F2, K2, ⟨false, c2.parent, δ, c2.offsets⟩, ?_, Q', rfl, by simp [lastLeaf, hl], fun hcl => ?_⟩
      · rw [erun]
        have h0 : ¬ δ + 1 = 0 := by omega
        have hf : c2.leaf = false := by rw [hleaf]; simpa using hll
        simp only [placeVisit, d2, h0, if_false, hf, Bool.false_eq_true, M.pure_apply, Nat.add_sub_cancel]
      · simp [cleanL, hl, hll] at hcl

mutual
theorem fillOK_elems : ∀ t : Tup α, good t = true → FillOK g v base n h t.elems
  | .bare d, _ => fillOK_nil
  | .tup d ks, hg => fillOK ks (by simpa [good] using hg)
theorem fillOK : ∀ ks : List (Tup α), goodL ks = true → FillOK g v base n h ks
  | [], _ => fillOK_nil
  | k :: ks, hg => by
    simp only [goodL, Bool.and_eq_true, Bool.or_eq_true, List.isEmpty_iff] at hg
    refine fillOK_cons (fillOK_single (fillOK_elems k hg.1.1)) (fillOK ks hg.2) ?_
    rcases hg.1.2 with (h3 | h3) | h3
    · exact .inl h3
    · exact .inr (by simp [cleanL, h3])
    · exact .inr (by simp [cleanL, h3])
end
end
end Trees
