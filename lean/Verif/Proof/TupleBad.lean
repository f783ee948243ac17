import Verif.Proof.FromTuple
/-
`from_tuple` on the shapes it does not handle: some item is overwritten, that is, destroyed.
-/
namespace Trees
set_option linter.unusedSimpArgs false
variable {α β γ : Type}
open RTree Tup

/-- A program that never shortens the list of destroyed items. -/
def LogMono (c : M α β) : Prop := ∀ h b h', c h = .ok b h' → h.log.length ≤ h'.log.length

theorem bind_ok_inv {c : M α β} {f : β → M α γ} {h h' : Heap α} {b : γ} (e : (c >>= f) h = .ok b h') :
    ∃ x h1, c h = .ok x h1 ∧ f x h1 = .ok b h' := by
  rw [M.bind_apply] at e
  cases hc : c h with
  | ok x h1 => rw [hc] at e; exact ⟨x, h1, rfl, e⟩
  | err _ _ => rw [hc] at e; simp at e

theorem LogMono.bind {c : M α β} {f : β → M α γ} (hc : LogMono c) (hf : ∀ b, LogMono (f b)) : LogMono (c >>= f) := by
  intro h b h' e
  obtain ⟨x, h1, e1, e2⟩ := bind_ok_inv e
  exact Nat.le_trans (hc _ _ _ e1) (hf _ _ _ _ e2)
theorem LogMono.pure (b : β) : LogMono (pure b : M α β) := by
  intro h b h' e; simp only [M.pure_apply, Res.ok.injEq] at e; rw [e.2]; exact Nat.le_refl _
theorem LogMono.throw (e : Err) : LogMono (M.throw e : M α β) := by intro h b h' e; simp at e
theorem LogMono.rd {f : Heap α → Addr → β} {a : Addr} : LogMono (Trees.rd f a) := by
  intro h b h' e
  simp only [Trees.rd] at e
  split at e <;> simp at e
  rw [e.2]; exact Nat.le_refl _
theorem LogMono.wr {f : Heap α → Heap α} {a : Addr} (hf : ∀ h, (f h).log = h.log) : LogMono (Trees.wr f a) := by
  intro h b h' e
  simp only [Trees.wr] at e
  split at e <;> simp at e
  rw [← e, hf]; exact Nat.le_refl _
theorem LogMono.ite {P : Prop} [Decidable P] {c d : M α β} (hc : LogMono c) (hd : LogMono d) : LogMono (if P then c else d) := by
  split <;> assumption

theorem LogMono.vecNode (v i : Nat) : LogMono (Trees.vecNode v i : M α Addr) := by
  intro h b h' e
  simp only [Trees.vecNode] at e
  split at e
  · simp at e
  · split at e <;> simp at e
    rw [e.2]; exact Nat.le_refl _

theorem LogMono.idx (xs : List Nat) (i : Nat) : LogMono (Trees.idx xs i : M α Nat) := by
  simp only [Trees.idx]; split
  · exact .pure _
  · exact .throw _
theorem LogMono.bump (xs : List Nat) (i : Nat) : LogMono (Trees.bump xs i : M α (List Nat)) := by
  simp only [Trees.bump]; split
  · exact .pure _
  · exact .throw _

theorem LogMono.vecMakeNode (v : Nat) (par) (i : Nat) (d : Data α) (s : Size) : LogMono (Trees.vecMakeNode v par i d s) := by
  refine (LogMono.vecNode _ _).bind fun a => .bind (.wr fun _ => rfl) fun _ => .bind (.wr fun _ => rfl) fun _ => .bind .rd fun old =>
    .bind (.wr fun _ => rfl) fun _ => ?_
  dsimp only
  split
  · refine .bind (f := fun _ => Pure.pure _) ?_ fun _ => .pure _
    intro h b h' e
    simp only [logDrop, Res.ok.injEq, true_and] at e
    rw [← e]; simp
  · exact .bind (f := fun _ => Pure.pure _) (.pure ()) fun _ => .pure _

theorem LogMono.connectNext (a b : Addr) : LogMono (Trees.connectNext a b : M α Unit) :=
  .bind (.wr fun _ => rfl) fun _ => .wr fun _ => rfl

theorem LogMono.appendChild (v p c : Nat) (d : α) (s : Size) : LogMono (Trees.appendChild v p c d s) := by
  refine (LogMono.vecNode _ _).bind fun a => .bind (LogMono.vecMakeNode _ _ _ _ _) fun b => .bind .rd fun o => ?_
  cases o with
  | none => exact .bind (.wr fun _ => rfl) fun _ => .wr fun _ => rfl
  | some t => exact .bind (.connectNext _ _) fun _ => .wr fun _ => rfl

theorem LogMono.placeVisit (g : Bool) (v : Nat) (c : Cursor) (x : Visit α) (s : Size) : LogMono (Trees.placeVisit g v c x s) := by
  cases x with
  | branch d => exact .bind (.idx _ _) fun _ => .bind (.appendChild _ _ _ _ _) fun _ => .bind (.idx _ _) fun _ => .pure _
  | leaf d => exact .bind (.idx _ _) fun _ => .bind (.appendChild _ _ _ _ _) fun _ => .bind (.bump _ _) fun _ => .pure _
  | frame =>
    refine .ite (.throw _) (.ite (.bind (.bump _ _) fun _ => ?_) (.pure _))
    exact .ite (.pure _) (.ite (.throw _) (.bind (.idx _ _) fun _ => .pure _))

theorem LogMono.placeAll (g : Bool) (v : Nat) (xs : List (Visit α × Size)) : ∀ c, LogMono (Trees.placeAll g v c xs) := by
  induction xs with
  | nil => intro c; exact .pure _
  | cons x xs ih => intro c; exact .bind (.placeVisit _ _ _ _ _) fun c' => ih c'

/-- Writing to a slot that holds an item destroys it. -/
theorem appendChild_over {v p c : Nat} {d : α} {s : Size} {h h' : Heap α} {nv : NodeVec} (hv : h.vec v = some nv)
    {x : α} (hx : (h.data (nv.base + c)).val? = some x) {u : Unit} (e : appendChild v p c d s h = .ok u h') : h.log.length < h'.log.length := by
  simp only [appendChild] at e
  obtain ⟨a, h1, e1, f1⟩ := bind_ok_inv e
  obtain ⟨b, h2, e2, f2⟩ := bind_ok_inv f1
  have hh : h1 = h := by
    simp only [vecNode, hv] at e1
    split at e1 <;> simp at e1
    exact e1.2.symm
  have hlt : h.log.length < h2.log.length := by
    rw [hh] at e2
    simp only [makePiledNode, vecMakeNode] at e2
    obtain ⟨a', h3, e3, f3⟩ := bind_ok_inv e2
    have ha : a' = nv.base + c ∧ h3 = h := by
      simp only [vecNode, hv] at e3
      split at e3 <;> simp at e3
      exact ⟨e3.1.symm, e3.2.symm⟩
    rw [ha.1, ha.2] at f3
    obtain ⟨_, h4, e4, f4⟩ := bind_ok_inv f3
    obtain ⟨_, h5, e5, f5⟩ := bind_ok_inv f4
    obtain ⟨old, h6, e6, f6⟩ := bind_ok_inv f5
    obtain ⟨_, h7, e7, f7⟩ := bind_ok_inv f6
    simp only [setUp, wr] at e4
    split at e4 <;> simp at e4
    simp only [setSize, wr] at e5
    split at e5 <;> simp at e5
    simp only [getData, rd] at e6
    split at e6 <;> simp at e6
    simp only [setData, wr] at e7
    split at e7 <;> simp at e7
    have hold : old.val? = some x := by rw [← e6.1, ← e5, ← e4]; exact hx
    simp only [hold, M.bind_apply, logDrop, Res.bind_ok, M.pure_apply, Res.ok.injEq] at f7
    rw [← f7.2, ← e7, ← e6.2, ← e5, ← e4]; simp
  refine Nat.lt_of_lt_of_le hlt ?_
  have hm : LogMono (do
      match (← getTail a) with
      | some t => connectNext t b
      | none => setHead a (some b)
      setTail a (some b) : M α Unit) := by
    refine .bind .rd fun o => ?_
    cases o with
    | none => exact .bind (.wr fun _ => rfl) fun _ => .wr fun _ => rfl
    | some t => exact .bind (.connectNext _ _) fun _ => .wr fun _ => rfl
  exact hm _ _ _ f2

theorem idx_inv {xs : List Nat} {i x : Nat} {h h' : Heap α} (e : idx xs i h = .ok x h') : xs[i]? = some x ∧ h' = h := by
  cases hx : xs[i]? with
  | none => simp [idx, hx] at e
  | some y => simp only [idx, hx, M.pure_apply, Res.ok.injEq] at e; exact ⟨by rw [e.1], e.2.symm⟩
theorem bump_inv {xs ys : List Nat} {i : Nat} {h h' : Heap α} (e : bump xs i h = .ok ys h') : (∃ x, ys = xs.set i x) ∧ h' = h := by
  cases hx : xs[i]? with
  | none => simp [bump, hx] at e
  | some y => simp only [bump, hx, M.pure_apply, Res.ok.injEq] at e; exact ⟨⟨_, e.1.symm⟩, e.2.symm⟩

/-- Visiting a list of trees: the cursor returns to its depth, and the offsets of the levels above are not
touched. -/
def LowOK (g : Bool) (v : Nat) (ks : List (Tup α)) : Prop :=
  ∀ c h c' h', placeAll g v c (preorderWithSizeHintL ks) h = .ok c' h' →
    c'.depth = c.depth ∧ c'.leaf = lastLeaf c.leaf ks ∧ ∀ i, i < c.depth → c'.offsets[i]? = c.offsets[i]?

section
variable {g : Bool} {v : Nat}

theorem lowOK_cons {t : Tup α} {ts : List (Tup α)} (h1 : LowOK g v [t]) (h2 : LowOK g v ts) : LowOK g v (t :: ts) := by
  intro c h c' h' e
  rw [preorderWithSizeHintL, placeAll_append] at e
  obtain ⟨c1, h1', e1, e2⟩ := bind_ok_inv e
  obtain ⟨a1, a3, a2⟩ := h1 c h c1 h1' (by simpa [preorderWithSizeHintL] using e1)
  obtain ⟨b1, b3, b2⟩ := h2 _ _ _ _ e2
  refine ⟨b1.trans a1, ?_, fun i hi => (b2 i (by omega)).trans (a2 i hi)⟩
  rw [b3]
  cases ts with
  | nil => simp [lastLeaf, a3]
  | cons u us =>
    simp only [lastLeaf, List.getLast?_cons_cons]
    cases hg : (u :: us).getLast? with
    | none => simp at hg
    | some k => rfl

/-- The visits of one tree with children. -/
theorem branch_inv {t : Tup α} (hl : t.isLeaf = false) {c c' : Cursor} {h h' : Heap α}
    (e : placeAll g v c (preorderWithSizeHintL [t]) h = .ok c' h') :
    ∃ o h1 c2 h2, c.offsets[c.depth]? = some o ∧ appendChild v c.parent o t.item t.size h = .ok () h1 ∧
      placeAll g v { c with parent := o, depth := c.depth + 1 } (preorderWithSizeHintL t.elems) h1 = .ok c2 h2 ∧
      placeVisit g v c2 .frame t.size h2 = .ok c' h' := by
  simp only [preorderWithSizeHintL, preorderWithSizeHint_branch hl, List.append_nil, List.cons_append, placeAll] at e
  obtain ⟨c1, h1, e1, f1⟩ := bind_ok_inv e
  simp only [placeVisit] at e1
  obtain ⟨o, h3, e3, f3⟩ := bind_ok_inv e1
  obtain ⟨ho, hh3⟩ := idx_inv e3
  obtain ⟨_, h4, e4, f4⟩ := bind_ok_inv f3
  obtain ⟨o', h5, e5, f5⟩ := bind_ok_inv f4
  obtain ⟨ho', hh5⟩ := idx_inv e5
  rw [ho] at ho'
  simp only [Option.some.injEq] at ho'
  simp only [M.pure_apply, Res.ok.injEq] at f5
  obtain ⟨g1, g2⟩ := f5
  rw [placeAll_append] at f1
  obtain ⟨c2, h2, e2, f2⟩ := bind_ok_inv f1
  simp only [placeAll] at f2
  obtain ⟨c3, h6, e6, f6⟩ := bind_ok_inv f2
  simp only [M.pure_apply, Res.ok.injEq] at f6
  obtain ⟨k1, k2⟩ := f6
  refine ⟨o, h1, c2, h2, ho, ?_, ?_, ?_⟩
  · rw [← g2, hh5, ← hh3]; exact e4
  · rw [← ho', ] at g1; rw [g1]; exact e2
  · rw [← k1, ← k2]; exact e6

theorem frame_inv {c c' : Cursor} {s : Size} {h h' : Heap α} (e : placeVisit g v c .frame s h = .ok c' h') :
    c.depth ≠ 0 ∧ c'.depth = c.depth - 1 ∧ c'.leaf = false ∧ (∀ i, i < c.depth - 1 → c'.offsets[i]? = c.offsets[i]?) ∧
    (c.leaf = false → c'.offsets = c.offsets) := by
  simp only [placeVisit] at e
  split at e
  · simp at e
  rename_i hd
  refine ⟨hd, ?_⟩
  split at e
  · rename_i hlf
    obtain ⟨ys, h1, e1, f1⟩ := bind_ok_inv e
    obtain ⟨⟨x, hx⟩, -⟩ := bump_inv e1
    have key : ∀ i, i < c.depth - 1 → ys[i]? = c.offsets[i]? := by
      intro i hi; rw [hx, List.getElem?_set, if_neg (by omega)]
    split at f1
    · simp only [M.pure_apply, Res.ok.injEq] at f1
      rw [← f1.1]; exact ⟨rfl, rfl, key, by simp [hlf]⟩
    · split at f1
      · simp at f1
      · obtain ⟨p, h2, e2, f2⟩ := bind_ok_inv f1
        simp only [M.pure_apply, Res.ok.injEq] at f2
        rw [← f2.1]; exact ⟨rfl, rfl, key, by simp [hlf]⟩
  · simp only [M.pure_apply, Res.ok.injEq] at e
    rw [← e.1]; exact ⟨rfl, by rename_i hlf; simpa using hlf, fun _ _ => rfl, fun _ => rfl⟩

theorem lowOK_single {t : Tup α} (hk : LowOK g v t.elems) : LowOK g v [t] := by
  intro c h c' h' e
  by_cases hl : t.isLeaf = true
  · simp only [preorderWithSizeHintL, preorderWithSizeHint_leaf hl, List.append_nil, placeAll] at e
    obtain ⟨c1, h1, e1, f1⟩ := bind_ok_inv e
    simp only [M.pure_apply, Res.ok.injEq] at f1
    simp only [placeVisit] at e1
    obtain ⟨o, h3, e3, f3⟩ := bind_ok_inv e1
    obtain ⟨_, h4, e4, f4⟩ := bind_ok_inv f3
    obtain ⟨ys, h5, e5, f5⟩ := bind_ok_inv f4
    obtain ⟨⟨x, hx⟩, -⟩ := bump_inv e5
    simp only [M.pure_apply, Res.ok.injEq] at f5
    rw [← f1.1, ← f5.1]
    exact ⟨rfl, by simp [lastLeaf, hl], fun i hi => by simp only; rw [hx, List.getElem?_set, if_neg (by omega)]⟩
  · obtain ⟨o, h1, c2, h2, ho, e1, e2, e3⟩ := branch_inv (by simpa using hl) e
    obtain ⟨a1, a3, a2⟩ := hk _ _ _ _ e2
    obtain ⟨b1, b2, b5, b3, b4⟩ := frame_inv e3
    dsimp only at a1 a2
    have hl' : t.isLeaf = false := by simpa using hl
    refine ⟨by omega, by simp [lastLeaf, hl', b5], fun i hi => ?_⟩
    rw [b3 i (by omega), a2 i (by omega)]

mutual
theorem lowOK_elems : ∀ t : Tup α, LowOK g v t.elems
  | .bare d => by intro c h c' h' e; simp [preorderWithSizeHintL, placeAll, elems] at e; rw [e.1]; simp [lastLeaf, elems]
  | .tup d ks => lowOK ks
theorem lowOK : ∀ ks : List (Tup α), LowOK g v ks
  | [] => by intro c h c' h' e; simp [preorderWithSizeHintL, placeAll] at e; rw [e.1]; simp [lastLeaf, elems]
  | k :: ks => lowOK_cons (lowOK_single (lowOK_elems k)) (lowOK ks)
end
end

/-- A bad list of trees: if the visits go through, some item is destroyed. -/
def BadOK (g : Bool) (v base n : Nat) (h : Heap α) (ks : List (Tup α)) : Prop :=
  ∀ (δ p : Nat) (F : Heap α) (K : Addr → List Addr) (l0 : Bool) (offs : List Nat),
    BInv F v base n K → p < n → F.Used (base + p) → 1 ≤ δ → offs[δ - 1]? = some p →
    (∀ k, 0 < forestDescendants ks k → δ + k < offs.length) →
    (∀ k i, i < forestDescendants ks k → offs.getD (δ + k) 0 + i < n ∧ ¬ F.Used (base + (offs.getD (δ + k) 0 + i))) →
    (∀ k k' i i', i < forestDescendants ks k → i' < forestDescendants ks k' →
      offs.getD (δ + k) 0 + i = offs.getD (δ + k') 0 + i' → k = k') →
    ∀ c' h', placeAll g v ⟨l0, p, δ, offs⟩ (preorderWithSizeHintL ks) (join (blkP base n) (blkQ v) h F) = .ok c' h' →
      h.log.length < h'.log.length

theorem join_log (P Q) (h F : Heap α) : (join P Q h F).log = h.log := rfl

section
variable {g : Bool} {v base n : Nat} {h : Heap α}

theorem badOK_here {t u : Tup α} {us : List (Tup α)} (hg : good t = true) (hc : cleanL [t] = false) : BadOK g v base n h (t :: u :: us) := by
  intro δ p F K l0 offs B hp hU hδ ho hlen hfree hdisj c' h' e
  have hle : ∀ k, forestDescendants [t] k ≤ forestDescendants (t :: u :: us) k := fun k => by have := fd_cons t (u :: us) k; omega
  have hF := fillOK (g := g) (v := v) (base := base) (n := n) (h := h) [t] (by simp [goodL, hg])
  obtain ⟨F1, K1, c1, e1, Q1, d1, l1, -⟩ := hF δ p F K l0 offs B hp hU hδ ho
    (fun k hk => hlen k (Nat.lt_of_lt_of_le hk (hle k)))
    (fun k i hi => hfree k i (Nat.lt_of_lt_of_le hi (hle k)))
    (fun k k' i i' hi hi' e => hdisj k k' i i' (Nat.lt_of_lt_of_le hi (hle k)) (Nat.lt_of_lt_of_le hi' (hle k')) e)
  have hnl : t.isLeaf = false := by
    simp only [cleanL, List.getLast?_singleton, Bool.or_eq_false_iff] at hc; exact hc.1
  have hnll : t.leafLast = false := by
    simp only [cleanL, List.getLast?_singleton, Bool.or_eq_false_iff] at hc; exact hc.2
  -- the offset of the level was not advanced
  have hoff : c1.offsets[δ]? = offs[δ]? := by
    obtain ⟨o, h1, c2, h2, ho2, e2, e3, e4⟩ := branch_inv hnl e1
    obtain ⟨a1, a3, a2⟩ := lowOK_elems t _ _ _ _ e3
    obtain ⟨b1, b2, b5, b3, b4⟩ := frame_inv e4
    have hlf : c2.leaf = false := by
      rw [a3]
      simp only [lastLeaf]
      simp only [leafLast] at hnll
      cases hg : t.elems.getLast? with
      | none => simp [isLeaf] at hnl hg; exact absurd hg hnl
      | some k => rw [hg] at hnll; simpa using hnll
    rw [b4 hlf]
    exact a2 δ (by simp)
  have hδl := hlen 0 (by simp [forestDescendants])
  rw [Nat.add_zero] at hδl
  -- the slot of `t` holds its item
  have hslot : F1.IsVal (base + offs.getD δ 0) := by
    refine (Q1.new _ ⟨0, 0, by simp [forestDescendants], ?_⟩).2.1
    simp
  -- the next visit writes to it
  have e1' : placeAll g v ⟨l0, p, δ, offs⟩ (preorderWithSizeHint t) (join (blkP base n) (blkQ v) h F) =
      .ok c1 (join (blkP base n) (blkQ v) h F1) := by simpa [preorderWithSizeHintL] using e1
  rw [preorderWithSizeHintL, placeAll_append, M.bind_apply, e1', Res.bind_ok] at e
  have hfirst : ∃ (x : Visit α × Size) (xs : List (Visit α × Size)), preorderWithSizeHintL (u :: us) = x :: xs ∧ (x.1 = .leaf u.item ∨ x.1 = .branch u.item) := by
    by_cases hl : u.isLeaf = true
    · exact ⟨_, _, by rw [preorderWithSizeHintL, preorderWithSizeHint_leaf hl]; rfl, .inl rfl⟩
    · exact ⟨_, _, by rw [preorderWithSizeHintL, preorderWithSizeHint_branch (by simpa using hl)]; rfl, .inr rfl⟩
  obtain ⟨⟨x, sz⟩, xs, hx, hx1⟩ := hfirst
  rw [hx, placeAll] at e
  obtain ⟨c3, h3, e3, e4⟩ := bind_ok_inv e
  refine Nat.lt_of_lt_of_le ?_ (LogMono.placeAll _ _ _ _ _ _ _ e4)
  have happ : ∃ o h4, c1.offsets[c1.depth]? = some o ∧ appendChild v c1.parent o u.item sz (join (blkP base n) (blkQ v) h F1) = .ok () h4 ∧
      h4.log.length ≤ h3.log.length := by
    rcases hx1 with h5 | h5 <;> dsimp only at h5 <;> rw [h5] at e3 <;> simp only [placeVisit] at e3
    · obtain ⟨o, h6, e6, f6⟩ := bind_ok_inv e3
      obtain ⟨ho, rfl⟩ := idx_inv e6
      obtain ⟨_, h7, e7, f7⟩ := bind_ok_inv f6
      exact ⟨o, h7, ho, e7, (LogMono.bind (.bump _ _) fun _ => .pure _) _ _ _ f7⟩
    · obtain ⟨o, h6, e6, f6⟩ := bind_ok_inv e3
      obtain ⟨ho, rfl⟩ := idx_inv e6
      obtain ⟨_, h7, e7, f7⟩ := bind_ok_inv f6
      exact ⟨o, h7, ho, e7, (LogMono.bind (.idx _ _) fun _ => .pure _) _ _ _ f7⟩
  obtain ⟨o, h4, ho, e5, hle4⟩ := happ
  refine Nat.lt_of_lt_of_le ?_ hle4
  rw [d1, hoff, List.getElem?_eq_getElem hδl] at ho
  have hoe : o = offs.getD δ 0 := by
    simp only [Option.some.injEq] at ho
    rw [List.getD_eq_getElem?_getD, List.getElem?_eq_getElem hδl, ho]; rfl
  subst hoe
  obtain ⟨hcn, -⟩ := hfree 0 0 (by simp [forestDescendants])
  simp only [Nat.add_zero] at hcn
  have hvec : (join (blkP base n) (blkQ v) h F1).vec v = some ⟨base, n, n⟩ := by simp [join, blkQ_self, Q1.b.vec]
  have hdat : (join (blkP base n) (blkQ v) h F1).data (base + offs.getD δ 0) = F1.data (base + offs.getD δ 0) := by
    simp only [join, blkP_add hcn, if_true]
  rw [Heap.isVal_iff] at hslot
  obtain ⟨y, hy⟩ := hslot
  have hfin := appendChild_over (h := join (blkP base n) (blkQ v) h F1) hvec (x := y) (by dsimp only; rw [hdat]; exact hy) e5
  exact hfin

theorem badOK_tail {t : Tup α} {ts : List (Tup α)} (hg : good t = true) (hc : cleanL [t] = true) (h2 : BadOK g v base n h ts) :
    BadOK g v base n h (t :: ts) := by
  intro δ p F K l0 offs B hp hU hδ ho hlen hfree hdisj c' h' e
  have hle : ∀ k, forestDescendants [t] k ≤ forestDescendants (t :: ts) k := fun k => by have := fd_cons t ts k; omega
  have hle2 : ∀ k, forestDescendants ts k ≤ forestDescendants (t :: ts) k := fun k => by have := fd_cons t ts k; omega
  have hF := fillOK (g := g) (v := v) (base := base) (n := n) (h := h) [t] (by simp [goodL, hg])
  obtain ⟨F1, K1, c1, e1, Q1, d1, l1, cl1⟩ := hF δ p F K l0 offs B hp hU hδ ho
    (fun k hk => hlen k (Nat.lt_of_lt_of_le hk (hle k)))
    (fun k i hi => hfree k i (Nat.lt_of_lt_of_le hi (hle k)))
    (fun k k' i i' hi hi' e => hdisj k k' i i' (Nat.lt_of_lt_of_le hi (hle k)) (Nat.lt_of_lt_of_le hi' (hle k')) e)
  obtain ⟨cp, cl, co⟩ := cl1 hc
  have hδl : δ - 1 < offs.length := by
    rw [List.getElem?_eq_some_iff] at ho; exact ho.1
  have co' : ∀ k, c1.offsets.getD (δ + k) 0 = offs.getD (δ + k) 0 + forestDescendants [t] k := by
    intro k; rw [co]; simp
  have hU1 : F1.Used (base + p) := (Q1.used _).mpr (.inl hU)
  have ho1 : c1.offsets[δ - 1]? = some p := by
    have h3 := co (δ - 1)
    rw [if_neg (by omega), List.getD_eq_getElem?_getD, List.getD_eq_getElem?_getD, ho] at h3
    rw [List.getElem?_eq_getElem (by omega)] at h3 ⊢
    simpa using h3
  have hc1 : c1 = ⟨c1.leaf, p, δ, c1.offsets⟩ := by rw [← cp, ← d1]
  have e1' : placeAll g v ⟨l0, p, δ, offs⟩ (preorderWithSizeHint t) (join (blkP base n) (blkQ v) h F) =
      .ok c1 (join (blkP base n) (blkQ v) h F1) := by simpa [preorderWithSizeHintL] using e1
  rw [preorderWithSizeHintL, placeAll_append, M.bind_apply, e1', Res.bind_ok, hc1] at e
  refine h2 δ p F1 K1 c1.leaf c1.offsets Q1.b hp hU1 hδ ho1
    (fun k hk => by rw [cl]; exact hlen k (Nat.lt_of_lt_of_le hk (hle2 k))) ?_ ?_ c' h' e
  · intro k i hi
    rw [co']
    have hi' : forestDescendants [t] k + i < forestDescendants (t :: ts) k := by have := fd_cons t ts k; omega
    obtain ⟨a1, a2⟩ := hfree k _ hi'
    refine ⟨by omega, ?_⟩
    rw [Q1.used]
    rintro (hu | ⟨k', i', hi2, e⟩)
    · exact a2 (by rwa [← Nat.add_assoc (offs.getD (δ + k) 0)])
    · have e' : offs.getD (δ + k) 0 + (forestDescendants [t] k + i) = offs.getD (δ + k') 0 + i' := by
        have e : base + (offs.getD (δ + k) 0 + forestDescendants [t] k + i) = base + (offs.getD (δ + k') 0 + i') := e
        omega
      have := hdisj k k' _ i' hi' (Nat.lt_of_lt_of_le hi2 (hle k')) e'
      subst this
      omega
  · intro k k' i i' hi hi' e
    rw [co', co'] at e
    exact hdisj k k' (forestDescendants [t] k + i) (forestDescendants [t] k' + i') (by have := fd_cons t ts k; omega)
      (by have := fd_cons t ts k'; omega) (by omega)

theorem badOK_nested {t : Tup α} {ts : List (Tup α)} (hk : BadOK g v base n h t.elems) (hl : t.isLeaf = false) :
    BadOK g v base n h (t :: ts) := by
  intro δ p F K l0 offs B hp hU hδ ho hlen' hfree' hdisj' c' h' e
  have hle : ∀ k, forestDescendants [t] k ≤ forestDescendants (t :: ts) k := fun k => by have := fd_cons t ts k; omega
  have hlen : ∀ k, 0 < forestDescendants [t] k → δ + k < offs.length := fun k hk => hlen' k (Nat.lt_of_lt_of_le hk (hle k))
  have hfree : ∀ k i, i < forestDescendants [t] k → offs.getD (δ + k) 0 + i < n ∧ ¬ F.Used (base + (offs.getD (δ + k) 0 + i)) :=
    fun k i hi => hfree' k i (Nat.lt_of_lt_of_le hi (hle k))
  have hdisj : ∀ k k' i i', i < forestDescendants [t] k → i' < forestDescendants [t] k' →
      offs.getD (δ + k) 0 + i = offs.getD (δ + k') 0 + i' → k = k' :=
    fun k k' i i' hi hi' e => hdisj' k k' i i' (Nat.lt_of_lt_of_le hi (hle k)) (Nat.lt_of_lt_of_le hi' (hle k')) e
  rw [preorderWithSizeHintL, placeAll_append] at e
  obtain ⟨c1, h1, e1, e2⟩ := bind_ok_inv e
  refine Nat.lt_of_lt_of_le ?_ (LogMono.placeAll _ _ _ _ _ _ _ e2)
  obtain ⟨o, h2, c2, h3, ho2, e3, e4, e5⟩ := branch_inv (t := t) hl (by simpa [preorderWithSizeHintL] using e1)
  refine Nat.lt_of_lt_of_le ?_ (LogMono.placeVisit _ _ _ _ _ _ _ _ e5)
  have hδl := hlen 0 (by simp [forestDescendants])
  rw [Nat.add_zero] at hδl
  obtain ⟨hcn, hcU⟩ := hfree 0 0 (by simp [forestDescendants])
  simp only [Nat.add_zero] at hcn hcU
  have hod : offs[δ]? = some (offs.getD δ 0) := by simp [List.getD_eq_getElem?_getD, List.getElem?_eq_getElem hδl]
  dsimp only at ho2 e3 e4
  rw [hod] at ho2
  simp only [Option.some.injEq] at ho2
  subst ho2
  obtain ⟨F1, e6, B1, hU1, hup, hsz, hdt⟩ := appendChild_ok (h := h) B hp hcn hU hcU t.item t.size
  rw [e6] at e3
  simp only [Res.ok.injEq, true_and] at e3
  subst e3
  have hc1 : F1.Used (base + offs.getD δ 0) := (hU1 _).mpr (.inr rfl)
  have hs : ∀ k, δ + 1 + k = δ + (k + 1) := by intro k; omega
  refine hk (δ + 1) (offs.getD δ 0) F1 _ l0 offs B1 hcn hc1 (by omega) (by simpa using hod)
    (fun k hk => by rw [hs]; exact hlen (k + 1) (by rw [fd_elems]; exact hk)) ?_ ?_ c2 h3 e4
  · intro k i hi
    rw [← fd_elems] at hi
    obtain ⟨a1, a2⟩ := hfree (k + 1) i hi
    rw [hs]
    refine ⟨a1, ?_⟩
    rw [hU1]
    rintro (hu | e)
    · exact a2 hu
    · have e : base + (offs.getD (δ + (k + 1)) 0 + i) = base + offs.getD δ 0 := e
      have := hdisj (k + 1) 0 i 0 hi (by simp [forestDescendants]) (by simp only [Nat.add_zero]; omega)
      omega
  · intro k k' i i' hi hi' e
    rw [← fd_elems] at hi hi'
    rw [hs, hs] at e
    have := hdisj _ _ _ _ hi hi' e
    omega

mutual
theorem badOK_elems : ∀ t : Tup α, good t = false → BadOK g v base n h t.elems ∧ t.isLeaf = false
  | .bare d, hg => by simp [good] at hg
  | .tup d [], hg => by simp [good, goodL] at hg
  | .tup d (k :: ks), hg => ⟨badOK (k :: ks) (by simpa [good] using hg), by simp [isLeaf, elems]⟩
theorem badOK : ∀ ks : List (Tup α), goodL ks = false → BadOK g v base n h ks
  | [], hg => by simp [goodL] at hg
  | k :: ks, hg => by
    by_cases h1 : good k = true
    · by_cases h2 : (ks.isEmpty || k.isLeaf || k.leafLast) = true
      · have h3 : goodL ks = false := by simpa [goodL, h1, h2] using hg
        have h4 : ks ≠ [] := by rintro rfl; simp [goodL] at h3
        refine badOK_tail h1 ?_ (badOK ks h3)
        simp only [Bool.or_eq_true, List.isEmpty_iff] at h2
        rcases h2 with (h5 | h5) | h5
        · exact absurd h5 h4
        · simp [cleanL, h5]
        · simp [cleanL, h5]
      · simp only [Bool.not_eq_true, Bool.or_eq_false_iff] at h2
        cases ks with
        | nil => simp at h2
        | cons u us => exact badOK_here h1 (by simp [cleanL, h2.1.2, h2.2])
    · obtain ⟨h2, h3⟩ := badOK_elems k (by simpa using h1)
      exact badOK_nested h2 h3
end

/-- `fill_block` for a bad shape. -/
theorem fill_block_bad {h F1 : Heap α} {ks : List (Tup α)} (hg : goodL ks = false)
    (hn : n = countL (toTreeL ks) + 1)
    (hb : BInv F1 v base n (fun _ => [])) (hU : ∀ a, F1.Used a ↔ a = base) {desc : Nat → Nat}
    (hdesc : ∀ j, desc j = (level j (toTreeL ks)).length) {c : Cursor} {h' : Heap α}
    (e : placeAll g v ⟨false, 0, 1, initOffsets (heightMax ks + 1) desc⟩ (preorderWithSizeHintL ks) (join (blkP base n) (blkQ v) h F1) = .ok c h') :
    h.log.length < h'.log.length := by
  have hlt : ∀ k, 0 < forestDescendants ks k → k < heightMax ks := by
    intro k hk
    rw [fd_level] at hk
    by_contra hc
    have := (Proof.heightMax_iff ks k).mpr (by omega)
    rw [this] at hk; simp at hk
  have ho : ∀ k i, i < forestDescendants ks k → (initOffsets (heightMax ks + 1) desc).getD (1 + k) 0 = 1 + above (toTreeL ks) k :=
    fun k i hi => initOffsets_get hdesc (hlt k (by omega))
  have hbound : ∀ k i, i < forestDescendants ks k → above (toTreeL ks) k + i < countL (toTreeL ks) := by
    intro k i hi
    have h1 := above_succ (toTreeL ks) k
    have h2 := above_le (toTreeL ks) (k + 1)
    rw [fd_level] at hi; omega
  refine badOK (g := g) (v := v) (base := base) (n := n) (h := h) ks hg 1 0 F1 _ false
    (initOffsets (heightMax ks + 1) desc) hb (by omega) ((hU _).mpr rfl) (Nat.le_refl _) (initOffsets_zero _ _)
    (fun k hk => by rw [initOffsets_length]; have := hlt k hk; omega) ?_ ?_ c h' e
  · intro k i hi
    rw [ho k i hi]
    have := hbound k i hi
    refine ⟨by omega, ?_⟩
    rw [hU]
    intro e
    have e : base + (1 + above (toTreeL ks) k + i) = base := e
    omega
  · intro k k' i i' hi hi' e
    rw [ho k i hi, ho k' i' hi'] at e
    have h1 := above_succ (toTreeL ks) k
    have h2 := above_succ (toTreeL ks) k'
    rw [fd_level] at hi hi'
    rcases Nat.lt_trichotomy k k' with h3 | h3 | h3
    · have := above_mono (toTreeL ks) (show k + 1 ≤ k' by omega); omega
    · exact h3
    · have := above_mono (toTreeL ks) (show k' + 1 ≤ k by omega); omega

theorem treeFromTuple_bad {t : Tup α} (hg : t.good = false) {a : Addr} {h' : Heap α} (e : treeFromTuple t h = .ok a h') :
    h.log.length < h'.log.length := by
  have hg' : goodL t.elems = false := by cases t with
    | bare d => simp [good] at hg
    | tup d ks => simpa [good, elems] using hg
  have hleaf : t.isLeaf = false := (badOK_elems (g := true) (v := 0) (base := 0) (n := 0) (h := h) t hg).2
  have hn : t.size.descendants + 1 = countL (toTreeL t.elems) + 1 := by rw [size_szOf]
  obtain ⟨F1, e1, hb, hU, -⟩ := makeRoot_ok (h := bumped h (t.size.descendants + 1)) (v := h.nextVec) (base := h.nextAddr)
    (n := t.size.descendants + 1) (by omega) (dat := .piled t.item h.nextVec) (sz := t.size) (.inr ⟨_, rfl⟩)
  have hdesc : ∀ j, t.descendants j = (level j (toTreeL t.elems)).length := by
    intro j
    rw [Proof.descendants_eq, toTree_eq]; simp [level]
  have hH : t.height = heightMax t.elems + 1 := by cases t <;> simp [height, elems, heightMax]; omega
  simp only [treeFromTuple] at e
  obtain ⟨v, h1, e2, f2⟩ := bind_ok_inv e
  rw [newVec_join] at e2
  simp only [Res.ok.injEq] at e2
  obtain ⟨rfl, rfl⟩ := e2
  obtain ⟨_, h2, e3, f3⟩ := bind_ok_inv f2
  have hmono : h2.log.length ≤ h'.log.length := by
    have : LogMono (do let a ← vecNode h.nextVec 0; treeFromNode a : M α Addr) :=
      .bind (.vecNode _ _) fun _ => .bind (.wr fun _ => rfl) fun _ => .pure _
    exact this _ _ _ f3
  refine Nat.lt_of_lt_of_le ?_ hmono
  simp only [constructTree, preorderWithSizeHint_branch hleaf, Visit.data?, List.cons_append] at e3
  obtain ⟨_, h3, e4, f4⟩ := bind_ok_inv e3
  rw [makePiledNode, e1] at e4
  simp only [Res.ok.injEq] at e4
  obtain ⟨rfl, rfl⟩ := e4
  obtain ⟨c, h4, e5, f5⟩ := bind_ok_inv f4
  simp only [M.pure_apply, Res.ok.injEq, true_and] at f5
  subst f5
  rw [placeAll_append] at e5
  obtain ⟨c2, h5, e6, f6⟩ := bind_ok_inv e5
  refine Nat.lt_of_lt_of_le ?_ (LogMono.placeAll _ _ _ _ _ _ _ f6)
  rw [hH] at e6
  exact fill_block_bad (h := bumped h (t.size.descendants + 1)) hg' hn hb hU hdesc e6

theorem forestFromTuple_bad {ts : List (Tup α)} (hg : goodL ts = false) {a : Addr} {h' : Heap α} (e : forestFromTuple ts h = .ok a h') :
    h.log.length < h'.log.length := by
  have hsz' : forestSize ts = ⟨(toTreeL ts).length, countL (toTreeL ts)⟩ := c33_size_forest ts
  have hn : (forestSize ts).descendants + 1 = countL (toTreeL ts) + 1 := by rw [hsz']
  obtain ⟨F1, e1, hb, hU, -⟩ := makeRoot_ok (h := bumped h ((forestSize ts).descendants + 1)) (v := h.nextVec) (base := h.nextAddr)
    (n := (forestSize ts).descendants + 1) (by omega) (dat := .piledNone h.nextVec) (sz := forestSize ts) (.inl rfl)
  have hH : forestHeight ts = heightMax ts := by simp [forestHeight]
  simp only [forestFromTuple] at e
  obtain ⟨v, h1, e2, f2⟩ := bind_ok_inv e
  rw [newVec_join] at e2
  simp only [Res.ok.injEq] at e2
  obtain ⟨rfl, rfl⟩ := e2
  obtain ⟨_, h2, e3, f3⟩ := bind_ok_inv f2
  refine Nat.lt_of_lt_of_le ?_ (LogMono.vecNode _ _ _ _ _ f3)
  simp only [constructForest] at e3
  obtain ⟨_, h3, e4, f4⟩ := bind_ok_inv e3
  rw [e1] at e4
  simp only [Res.ok.injEq] at e4
  obtain ⟨rfl, rfl⟩ := e4
  obtain ⟨c, h4, e5, f5⟩ := bind_ok_inv f4
  simp only [M.pure_apply, Res.ok.injEq, true_and] at f5
  subst f5
  rw [hH] at e5
  exact fill_block_bad (h := bumped h ((forestSize ts).descendants + 1)) hg hn hb hU (fd_level ts) e5

end
end Trees
