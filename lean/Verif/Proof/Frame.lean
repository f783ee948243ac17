import Verif.Proof.Run
import Verif.Proof.Storage
import Verif.Model.Bfs
/-
Frame rule: code that runs on a heap without the region `P` (addresses) / `Q` (blocks) runs in the same
way when that region is present, and does not touch it.
-/
namespace Trees
set_option linter.unusedSimpArgs false
variable {α β γ : Type}

/-- Overlay: inside the region the contents of `F`, outside those of `h`. -/
def join (P : Addr → Bool) (Q : Nat → Bool) (h F : Heap α) : Heap α where
  live a := if P a then F.live a else h.live a
  prev a := if P a then F.prev a else h.prev a
  next a := if P a then F.next a else h.next a
  head a := if P a then F.head a else h.head a
  tail a := if P a then F.tail a else h.tail a
  up a := if P a then F.up a else h.up a
  size a := if P a then F.size a else h.size a
  data a := if P a then F.data a else h.data a
  count a := if P a then F.count a else h.count a
  borrow a := if P a then F.borrow a else h.borrow a
  vec v := if Q v then F.vec v else h.vec v
  nextAddr := h.nextAddr
  nextVec := h.nextVec
  log := h.log

/-- `h` has nothing in the region. -/
structure Avoid (P : Addr → Bool) (Q : Nat → Bool) (h : Heap α) : Prop where
  live : ∀ a, P a = true → h.live a = false
  addr : ∀ a, P a = true → a < h.nextAddr
  vec : ∀ v, Q v = true → h.vec v = none
  vecN : ∀ v, Q v = true → v < h.nextVec
  blk : ∀ v nv, h.vec v = some nv → ∀ a, InVec nv a → P a = false

theorem Avoid.notP {P Q} {h : Heap α} (A : Avoid P Q h) {a : Addr} (hl : h.live a = true) : P a = false := by
  cases hp : P a with
  | false => rfl
  | true => rw [A.live a hp] at hl; simp at hl

theorem Avoid.notQ {P Q} {h : Heap α} (A : Avoid P Q h) {v : Nat} {nv} (hl : h.vec v = some nv) : Q v = false := by
  cases hp : Q v with
  | false => rfl
  | true => rw [A.vec v hp] at hl; simp at hl

/-- Programs that satisfy the frame rule. -/
def Framed (c : M α β) : Prop := ∀ (P : Addr → Bool) (Q : Nat → Bool) (F h : Heap α) (b : β) (h' : Heap α),
  Avoid P Q h → c h = .ok b h' → Avoid P Q h' ∧ c (join P Q h F) = .ok b (join P Q h' F)

theorem Framed.pure (b : β) : Framed (pure b : M α β) := by
  intro P Q F h b' h' A e
  simp only [M.pure_apply, Res.ok.injEq] at e
  obtain ⟨rfl, rfl⟩ := e
  exact ⟨A, rfl⟩

theorem Framed.throw (e : Err) : Framed (M.throw e : M α β) := by
  intro P Q F h b' h' A e
  simp at e

theorem Framed.bind {c : M α β} {f : β → M α γ} (hc : Framed c) (hf : ∀ b, Framed (f b)) : Framed (c >>= f) := by
  intro P Q F h b h' A e
  simp only [M.bind_apply] at e ⊢
  cases e1 : c h with
  | err e2 s => rw [e1] at e; simp at e
  | ok b1 h1 =>
    rw [e1] at e
    simp only [Res.bind_ok] at e
    obtain ⟨A1, g1⟩ := hc P Q F h b1 h1 A e1
    obtain ⟨A2, g2⟩ := hf b1 P Q F h1 b h' A1 e
    exact ⟨A2, by rw [g1]; exact g2⟩

theorem Framed.map {c : M α β} {f : β → γ} (hc : Framed c) : Framed (f <$> c) := by
  intro P Q F h b h' A e
  simp only [M.map_apply] at e ⊢
  cases e1 : c h with
  | err e2 s => rw [e1] at e; simp at e
  | ok b1 h1 =>
    rw [e1] at e
    simp only [Res.bind_ok, Res.ok.injEq] at e
    obtain ⟨rfl, rfl⟩ := e
    obtain ⟨A1, g1⟩ := hc P Q F h b1 h1 A e1
    exact ⟨A1, by rw [g1]; rfl⟩

theorem Framed.unwrap (o : Option β) : Framed (unwrap o : M α β) := by
  cases o with
  | none => exact Framed.throw _
  | some b => exact Framed.pure b

theorem rd_inv {f : Heap α → Addr → β} {a : Addr} {h : Heap α} {b h'} (e : rd f a h = .ok b h') :
    h.live a = true ∧ b = f h a ∧ h' = h := by
  unfold rd at e
  split at e
  · simp only [Res.ok.injEq] at e
    exact ⟨by assumption, e.1.symm, e.2.symm⟩
  · simp at e

theorem wr_inv {f : Heap α → Heap α} {a : Addr} {h : Heap α} {b h'} (e : wr f a h = .ok b h') :
    h.live a = true ∧ h' = f h := by
  unfold wr at e
  split at e
  · simp only [Res.ok.injEq] at e
    exact ⟨by assumption, e.2.symm⟩
  · simp at e

/-- Field reads. -/
theorem Framed.rd {f : Heap α → Addr → β} {a : Addr}
    (hf : ∀ P Q F h, P a = false → f (join P Q h F) a = f h a) : Framed (rd f a) := by
  intro P Q F h b h' A e
  obtain ⟨hl, rfl, rfl⟩ := rd_inv e
  have hp := A.notP hl
  refine ⟨A, ?_⟩
  rw [rd_ok (by simp [join, hp, hl]), hf P Q F h' hp]

theorem framed_getPrev (a : Addr) : Framed (getPrev a : M α _) := Framed.rd (fun P Q F h hp => by simp [join, hp])
theorem framed_getNext (a : Addr) : Framed (getNext a : M α _) := Framed.rd (fun P Q F h hp => by simp [join, hp])
theorem framed_getHead (a : Addr) : Framed (getHead a : M α _) := Framed.rd (fun P Q F h hp => by simp [join, hp])
theorem framed_getTail (a : Addr) : Framed (getTail a : M α _) := Framed.rd (fun P Q F h hp => by simp [join, hp])
theorem framed_getUp (a : Addr) : Framed (getUp a : M α _) := Framed.rd (fun P Q F h hp => by simp [join, hp])
theorem framed_getSize (a : Addr) : Framed (getSize a : M α _) := Framed.rd (fun P Q F h hp => by simp [join, hp])
theorem framed_getData (a : Addr) : Framed (getData a : M α _) := Framed.rd (fun P Q F h hp => by simp [join, hp])

theorem join_upd {β : Type} {P : Addr → Bool} {a : Addr} (hp : P a = false) (f g : Addr → β) (v : β) :
    (fun x => if P x = true then f x else upd g a v x) = upd (fun x => if P x = true then f x else g x) a v := by
  funext x
  simp only [upd_apply]
  by_cases hx : x = a
  · subst hx; simp [hp]
  · simp [hx]

theorem Framed.wr {f : Heap α → Heap α} {a : Addr}
    (hf : ∀ P Q F h, P a = false → join P Q (f h) F = f (join P Q h F))
    (hl : ∀ h, (f h).live = h.live ∧ (f h).vec = h.vec ∧ (f h).nextAddr = h.nextAddr ∧ (f h).nextVec = h.nextVec) :
    Framed (wr f a) := by
  intro P Q F h b h' A e
  obtain ⟨hla, rfl⟩ := wr_inv e
  have hp := A.notP hla
  obtain ⟨l1, l2, l3, l4⟩ := hl h
  refine ⟨⟨by rw [l1]; exact A.live, by rw [l3]; exact A.addr, by rw [l2]; exact A.vec, by rw [l4]; exact A.vecN,
    by rw [l2]; exact A.blk⟩, ?_⟩
  rw [wr_ok (by simp [join, hp, hla]), hf P Q F h hp]

theorem framed_setPrev (a : Addr) (v) : Framed (setPrev a v : M α _) :=
  Framed.wr (fun P Q F h hp => by simp [join, join_upd hp]) (by simp)
theorem framed_setNext (a : Addr) (v) : Framed (setNext a v : M α _) :=
  Framed.wr (fun P Q F h hp => by simp [join, join_upd hp]) (by simp)
theorem framed_setHead (a : Addr) (v) : Framed (setHead a v : M α _) :=
  Framed.wr (fun P Q F h hp => by simp [join, join_upd hp]) (by simp)
theorem framed_setTail (a : Addr) (v) : Framed (setTail a v : M α _) :=
  Framed.wr (fun P Q F h hp => by simp [join, join_upd hp]) (by simp)
theorem framed_setUp (a : Addr) (v) : Framed (setUp a v : M α _) :=
  Framed.wr (fun P Q F h hp => by simp [join, join_upd hp]) (by simp)
theorem framed_setSize (a : Addr) (v) : Framed (setSize a v : M α _) :=
  Framed.wr (fun P Q F h hp => by simp [join, join_upd hp]) (by simp)
theorem framed_setData (a : Addr) (v) : Framed (setData a v : M α _) :=
  Framed.wr (fun P Q F h hp => by simp [join, join_upd hp]) (by simp)

theorem framed_logDrop (d : α) : Framed (logDrop d : M α _) := by
  intro P Q F h b h' A e
  simp only [logDrop, Res.ok.injEq] at e
  obtain ⟨-, rfl⟩ := e
  exact ⟨⟨A.live, A.addr, A.vec, A.vecN, A.blk⟩, rfl⟩

/-- Loop budgets that only depend on the number of addresses. -/
theorem Framed.fuelled {f : Nat → M α β} (hf : ∀ n, Framed (f n)) : Framed (M.fuelled fun h => f h.nextAddr) := by
  intro P Q F h b h' A e
  simp only [M.fuelled_apply] at e ⊢
  exact hf _ P Q F h b h' A e

theorem framed_makeNode (d : Data α) : Framed (makeNode d) := by
  intro P Q F h b h' A e
  simp only [makeNode, Res.ok.injEq] at e
  obtain ⟨rfl, rfl⟩ := e
  have hp : P h.nextAddr = false := by
    cases hp : P h.nextAddr with
    | false => rfl
    | true => exact absurd (A.addr _ hp) (Nat.lt_irrefl _)
  refine ⟨⟨?_, ?_, A.vec, A.vecN, A.blk⟩, ?_⟩
  · intro a ha
    have hne : a ≠ h.nextAddr := fun e => by rw [e, hp] at ha; simp at ha
    simp only [upd_apply, hne, if_false]; exact A.live a ha
  · intro a ha; exact Nat.lt_succ_of_lt (A.addr a ha)
  · simp [makeNode, join, join_upd hp]

theorem framed_rcDrop (o : Addr) : Framed (rcDrop o : M α _) := by
  intro P Q F h b h' A e
  simp only [rcDrop] at e
  by_cases hl : h.live o = true
  · have hp := A.notP hl
    simp only [hl, if_true] at e
    by_cases h1 : h.count o = 1
    · simp only [h1, if_true, Res.ok.injEq, true_and] at e
      subst e
      refine ⟨⟨?_, A.addr, A.vec, A.vecN, A.blk⟩, ?_⟩
      · intro a ha
        simp only [upd_apply]
        split
        · rfl
        · exact A.live a ha
      · simp [rcDrop, join, join_upd hp, hp, hl, h1]
    · simp only [h1, if_false] at e
      by_cases h0 : h.count o = 0
      · simp [h0] at e
      · simp only [h0, if_false, Res.ok.injEq, true_and] at e
        subst e
        refine ⟨⟨A.live, A.addr, A.vec, A.vecN, A.blk⟩, ?_⟩
        simp [rcDrop, join, join_upd hp, hp, hl, h1, h0]
  · simp [hl] at e

theorem framed_decrRef (v : Nat) : Framed (decrRef v : M α _) := by
  intro P Q F h b h' A e
  simp only [decrRef] at e
  cases hv : h.vec v with
  | none => simp [hv] at e
  | some nv =>
    have hq := A.notQ hv
    have hblk := A.blk v nv hv
    simp only [hv] at e
    have hjv : ∀ x, (fun w => if Q w = true then F.vec w else upd h.vec v x w) =
        upd (fun w => if Q w = true then F.vec w else h.vec w) v x := fun x => join_upd (P := Q) hq _ _ _
    by_cases h0 : nv.refCnt = 0
    · simp [h0] at e
    · simp only [h0, if_false] at e
      by_cases h1 : nv.refCnt - 1 = 0
      · simp only [h1, if_true, Res.ok.injEq, true_and] at e
        subst e
        refine ⟨⟨?_, A.addr, ?_, A.vecN, ?_⟩, ?_⟩
        · intro a ha
          simp only [killRange]
          split
          · rfl
          · exact A.live a ha
        · intro w hw
          simp only [upd_apply]
          split
          · rfl
          · exact A.vec w hw
        · intro w nw hw
          simp only [upd_apply] at hw
          split at hw
          · simp at hw
          · exact A.blk w nw hw
        · have hk : (fun a => if P a = true then F.live a else killRange h.live nv a) =
              killRange (fun a => if P a = true then F.live a else h.live a) nv := by
            funext a
            simp only [killRange]
            by_cases ha : nv.base ≤ a ∧ a < nv.base + nv.cap
            · simp [ha, hblk a ha]
            · simp only [ha, if_false]
          simp [decrRef, join, hq, hv, h0, h1, hjv, hk]
      · simp only [h1, if_false, Res.ok.injEq, true_and] at e
        subst e
        refine ⟨⟨A.live, A.addr, ?_, A.vecN, ?_⟩, ?_⟩
        · intro w hw
          have hne : w ≠ v := fun e => by rw [e, hq] at hw; simp at hw
          simp only [upd_apply, hne, if_false]; exact A.vec w hw
        · intro w nw hw
          simp only [upd_apply] at hw
          split at hw
          · rename_i hwv
            simp only [Option.some.injEq] at hw
            subst hw
            exact hblk
          · exact A.blk w nw hw
        · simp [decrRef, join, hq, hv, h0, h1, hjv]

/-! ### Code -/

theorem framed_hasNoChild (a : Addr) : Framed (hasNoChild a : M α _) := (framed_getHead a).bind fun _ => .pure _
theorem framed_degree (a : Addr) : Framed (degree a : M α _) := (framed_getSize a).bind fun _ => .pure _
theorem framed_isForest (a : Addr) : Framed (isForest a : M α _) := (framed_getData a).bind fun _ => .pure _

theorem framed_dataRef (a : Addr) : Framed (dataRef a : M α _) := by
  refine (framed_getData a).bind fun d => ?_
  split
  · exact .pure _
  · exact .throw _

theorem framed_nodeCount (a : Addr) : Framed (nodeCount a : M α _) := by
  refine (framed_isForest a).bind fun d => ?_
  split
  · exact (framed_getSize a).bind fun _ => .pure _
  · exact (framed_getSize a).bind fun _ => .pure _

theorem framed_iter (a : Addr) : Framed (iter a : M α _) := by
  refine (framed_getHead a).bind fun d => ?_
  split
  · exact (framed_degree a).bind fun _ => .pure _
  · exact .pure _

theorem framed_rawNext (it : RawIter) : Framed (it.next : M α _) := by
  unfold RawIter.next
  split
  · exact .pure _
  · refine Framed.bind ?_ (fun _ => .pure _)
    unfold uncountedNext
    split
    · exact (framed_getNext _).bind fun _ => .pure _
    · exact .pure _

theorem framed_connectNext (a b : Addr) : Framed (connectNext a b : M α _) :=
  (framed_setNext _ _).bind fun _ => framed_setPrev _ _

theorem framed_incLoop (cnt : Nat) : ∀ (k : Nat) (o : Option Addr), Framed (incLoop k o cnt : M α _) := by
  intro k
  induction k with
  | zero => intro o; cases o with
    | none => exact .pure _
    | some p => exact .throw _
  | succ k ih => intro o; cases o with
    | none => exact .pure _
    | some p =>
      exact (framed_getSize p).bind fun s => (framed_setSize _ _).bind fun _ => (framed_getUp p).bind fun _ => ih _

theorem framed_decLoop (cnt : Nat) : ∀ (k : Nat) (o : Option Addr), Framed (decLoop k o cnt : M α _) := by
  intro k
  induction k with
  | zero => intro o; cases o with
    | none => exact .pure _
    | some p => exact .throw _
  | succ k ih => intro o; cases o with
    | none => exact .pure _
    | some p =>
      refine (framed_getSize p).bind fun s => ?_
      split
      · exact .throw _
      · exact (framed_setSize _ _).bind fun _ => (framed_getUp p).bind fun _ => ih _

theorem framed_incSizes (a : Addr) (deg cnt : Nat) : Framed (incSizes a deg cnt : M α _) :=
  (framed_getSize a).bind fun _ => (framed_setSize _ _).bind fun _ => (framed_getUp a).bind fun _ =>
    Framed.fuelled (f := fun n => incLoop n _ cnt) (fun n => framed_incLoop _ n _)

theorem framed_decSizes (a : Addr) (deg cnt : Nat) : Framed (decSizes a deg cnt : M α _) := by
  refine (framed_getSize a).bind fun _ => ?_
  split
  · exact .throw _
  · exact (framed_setSize _ _).bind fun _ => (framed_getUp a).bind fun _ =>
      Framed.fuelled (f := fun n => decLoop n _ cnt) (fun n => framed_decLoop _ n _)

theorem framed_treeFromNode (a : Addr) : Framed (treeFromNode a : M α _) := (framed_setUp _ _).bind fun _ => .pure _

theorem framed_pushBack (a t : Addr) : Framed (pushBack a t : M α _) := by
  refine (framed_setUp _ _).bind fun _ => (framed_hasNoChild a).bind fun b => ?_
  have hj : Framed (do setTail a (some t); let n ← nodeCount t; incSizes a 1 n : M α Unit) :=
    (framed_setTail _ _).bind fun _ => (framed_nodeCount t).bind fun _ => framed_incSizes _ _ _
  dsimp only
  split
  · exact (framed_setHead _ _).bind fun _ => hj
  · exact (framed_getTail a).bind fun _ => (Framed.unwrap _).bind fun _ => (framed_connectNext _ _).bind fun _ => hj

theorem framed_popFront (a : Addr) : Framed (popFront a : M α _) := by
  refine (framed_getSize a).bind fun s => ?_
  split
  · exact .pure _
  · exact (framed_getHead a).bind fun _ => (Framed.unwrap _).bind fun hd => (framed_setHead _ _).bind fun _ =>
      (framed_setTail _ _).bind fun _ => (framed_getSize hd).bind fun _ => (framed_decSizes _ _ _).bind fun _ =>
      (framed_treeFromNode hd).bind fun _ => .pure _
  · exact (framed_getHead a).bind fun _ => (Framed.unwrap _).bind fun hd => (framed_getNext hd).bind fun _ =>
      (Framed.unwrap _).bind fun nh => (framed_setPrev _ _).bind fun _ => (framed_setNext _ _).bind fun _ =>
      (framed_setHead _ _).bind fun _ => (framed_getSize hd).bind fun _ => (framed_decSizes _ _ _).bind fun _ =>
      (framed_treeFromNode hd).bind fun _ => .pure _

theorem framed_dropNode (a : Addr) : Framed (dropNode a : M α _) := by
  refine (framed_getData a).bind fun d => (framed_setData _ _).bind fun _ => ?_
  split
  · exact .pure _
  · exact framed_rcDrop _
  · exact (framed_rcDrop _).bind fun _ => framed_logDrop _
  · exact framed_decrRef _
  · exact (framed_decrRef _).bind fun _ => framed_logDrop _

theorem framed_dropLoop : ∀ (k : Nat) (a : Addr), Framed (dropLoop k a : M α _) := by
  intro k
  induction k with
  | zero => intro a; exact .throw _
  | succ k ih =>
    intro a
    refine (framed_popFront a).bind fun o => ?_
    split
    · exact (ih _).bind fun _ => ih _
    · exact framed_dropNode _

/-- A budget read from the node itself. -/
theorem Framed.fuelled_size {f : Size → M α β} {a : Addr} (hf : ∀ n, Framed (f n))
    (hl : ∀ n h b h', f n h = .ok b h' → h.live a = true) : Framed (M.fuelled fun h => f (h.size a)) := by
  intro P Q F h b h' A e
  simp only [M.fuelled_apply] at e ⊢
  have hp := A.notP (hl _ _ _ _ e)
  have : (join P Q h F).size a = h.size a := by simp [join, hp]
  rw [this]
  exact hf _ P Q F h b h' A e

theorem popFront_live {a : Addr} {h : Heap α} {b h'} (e : popFront a h = .ok b h') : h.live a = true := by
  simp only [popFront, M.bind_apply] at e
  cases e1 : getSize a h with
  | err e2 s => rw [e1] at e; simp at e
  | ok b1 h1 => exact (rd_inv e1).1

theorem framed_dropRoot (a : Addr) : Framed (dropRoot a : M α _) :=
  Framed.fuelled_size (f := fun s => dropLoop (s.descendants + 1) a) (fun n => framed_dropLoop _ _) (by
    intro n h b h' e
    simp only [dropLoop, M.bind_apply] at e
    cases e1 : popFront a h with
    | err e2 s => rw [e1] at e; simp at e
    | ok b1 h1 => exact popFront_live e1)

theorem framed_intoIterDropLoop : ∀ (k : Nat) (a : Addr), Framed (intoIterDropLoop k a : M α _) := by
  intro k
  induction k with
  | zero => intro a; exact .throw _
  | succ k ih =>
    intro a
    refine (framed_popFront a).bind fun o => ?_
    split
    · exact (framed_dropRoot _).bind fun _ => ih _
    · exact .pure _

theorem framed_intoIterDrop (a : Addr) : Framed (intoIterDrop a : M α _) := by
  refine Framed.bind ?_ (fun _ => framed_dropRoot a)
  exact Framed.fuelled_size (f := fun s => intoIterDropLoop (s.degree + 1) a) (fun n => framed_intoIterDropLoop _ _) (by
    intro n h b h' e
    simp only [intoIterDropLoop, M.bind_apply] at e
    cases e1 : popFront a h with
    | err e2 s => rw [e1] at e; simp at e
    | ok b1 h1 => exact popFront_live e1)

theorem framed_abandon (a : Addr) : Framed (abandon a : M α _) := by
  refine (framed_getData a).bind fun d => ?_
  split
  · exact (framed_setData _ _).bind fun _ => (framed_makeNode _).bind fun _ => .pure _
  · exact .throw _

theorem framed_intoData (a : Addr) : Framed (intoData a : M α _) := by
  refine (framed_getData a).bind fun d => (framed_setData _ _).bind fun _ => ?_
  split
  · exact (framed_decrRef _).bind fun _ => .pure _
  · exact (framed_rcDrop _).bind fun _ => .pure _
  · exact .throw _

theorem framed_treeIntoIter (a : Addr) : Framed (treeIntoIter a : M α _) :=
  (framed_makeNode _).bind fun _ => (framed_pushBack _ _).bind fun _ => .pure _

/-- Sources whose operations satisfy the frame rule. -/
structure Src.Framed {ι κ δ : Type} (S : Src α ι κ δ) : Prop where
  next : ∀ i, Trees.Framed (S.next i)
  len : ∀ i, Trees.Framed (S.len i)
  drop : ∀ i, Trees.Framed (S.drop i)
  split : ∀ k, Trees.Framed (S.split k)

theorem framed_refSrc : (refSrc : Src α _ _ _).Framed where
  next := framed_rawNext
  len _ := .pure _
  drop _ := .pure _
  split a := (framed_dataRef a).bind fun _ => (framed_iter a).bind fun _ => (framed_getSize a).bind fun _ => .pure _

theorem framed_ownSrc : (ownSrc : Src α _ _ _).Framed where
  next f := (framed_popFront f).bind fun _ => .pure _
  len := framed_degree
  drop := framed_intoIterDrop
  split a := (framed_getSize a).bind fun _ => (framed_abandon a).bind fun _ => (framed_intoData _).bind fun _ => .pure _

theorem Src.Framed.splittedNext {ι κ δ : Type} {S : Src α ι κ δ} (hS : S.Framed) : ∀ q, Trees.Framed (splittedNext S q) := by
  intro q
  induction q with
  | nil => exact .pure _
  | cons it rest ih =>
    refine (hS.next it).bind fun o => ?_
    split
    · refine (hS.split _).bind fun _ => (hS.len _).bind fun _ => .pure _
    · exact (hS.drop _).bind fun _ => ih

theorem Src.Framed.dropIters {ι κ δ : Type} {S : Src α ι κ δ} (hS : S.Framed) : ∀ q, Trees.Framed (dropIters S q) := by
  intro q
  induction q with
  | nil => exact .pure _
  | cons it rest ih => exact (hS.drop it).bind fun _ => ih

theorem framed_mapNext {δ κ σ : Type} {f : Nat → δ → κ} {nxt : σ → M α (Option (δ × Size) × σ)} (hn : ∀ s, Framed (nxt s)) (s : σ × Nat) :
    Framed (mapNext f nxt s) := by
  refine (hn s.1).bind fun o => ?_
  dsimp only
  split
  · exact .pure _
  · exact .pure _

end Trees
