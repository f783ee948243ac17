import Verif.Proof.Frame
import Verif.Model.Machine
/-
Robustness of the exclusive-ownership code: it runs in the same way in a heap that holds more (further nodes,
higher reference counts, blocks shared with others), and does not touch what it does not know.
-/
namespace Trees
set_option linter.unusedSimpArgs false
set_option linter.unusedVariables false
variable {α β γ : Type}

/-- Number of owners of a block, added up. -/
def addVec : Option NodeVec → Option NodeVec → Option NodeVec
  | some x, some y => some ⟨x.base, x.cap, x.refCnt + y.refCnt⟩
  | some x, none => some x
  | none, o => o

@[simp] theorem addVec_none (o : Option NodeVec) : addVec o none = o := by cases o <;> rfl
@[simp] theorem none_addVec (o : Option NodeVec) : addVec none o = o := rfl

/-- What the larger heap has in addition: nodes `P` (with contents `F`), references `e` to nodes, references `R` to
blocks. -/
structure Ctx (α : Type) where
  P : Addr → Bool
  F : Heap α
  e : Addr → Nat
  R : Nat → Option NodeVec

def pick {β : Type} (b : Bool) (x y : β) : β := if b then x else y
@[simp] theorem pick_true {β : Type} (x y : β) : pick true x y = x := rfl
@[simp] theorem pick_false {β : Type} (x y : β) : pick false x y = y := rfl

/-- `H` is `X` extended by `ρ`. -/
structure HRel (ρ : Ctx α) (X H : Heap α) : Prop where
  prev : ∀ a, H.prev a = pick (ρ.P a) (ρ.F.prev a) (X.prev a)
  next : ∀ a, H.next a = pick (ρ.P a) (ρ.F.next a) (X.next a)
  head : ∀ a, H.head a = pick (ρ.P a) (ρ.F.head a) (X.head a)
  tail : ∀ a, H.tail a = pick (ρ.P a) (ρ.F.tail a) (X.tail a)
  up : ∀ a, H.up a = pick (ρ.P a) (ρ.F.up a) (X.up a)
  size : ∀ a, H.size a = pick (ρ.P a) (ρ.F.size a) (X.size a)
  data : ∀ a, H.data a = pick (ρ.P a) (ρ.F.data a) (X.data a)
  borrow : ∀ a, H.borrow a = pick (ρ.P a) (ρ.F.borrow a) (X.borrow a)
  count : ∀ a, H.count a = pick (ρ.P a) (ρ.F.count a) (X.count a + ρ.e a)
  vec : ∀ v, H.vec v = addVec (X.vec v) (ρ.R v)
  nextAddr : H.nextAddr = X.nextAddr
  nextVec : H.nextVec = X.nextVec
  log : H.log = X.log
  liveP : ∀ a, ρ.P a = true → H.live a = ρ.F.live a
  liveX : ∀ a, X.live a = true → H.live a = true
  liveH : ∀ a, ρ.P a = false → H.live a = true → X.live a = true ∨
    ∃ v b, ρ.R v = some b ∧ X.vec v = none ∧ InVec b a
  dead : ∀ a, ρ.P a = true → X.live a = false
  bP : ∀ a, ρ.P a = true → a < X.nextAddr
  bE : ∀ a, ρ.e a ≠ 0 → a < X.nextAddr
  bR : ∀ v b, ρ.R v = some b → v < X.nextVec ∧ 0 < b.refCnt
  same : ∀ v x y, X.vec v = some x → ρ.R v = some y → y.base = x.base ∧ y.cap = x.cap ∧ 0 < x.refCnt
  blk : ∀ v x, X.vec v = some x → ρ.R v = none → ∀ a, InVec x a → ρ.P a = false

/-- The nodes that others refer to are still there. -/
def Ctx.Fin (ρ : Ctx α) (X : Heap α) : Prop := ∀ a, ρ.P a = false → ρ.e a ≠ 0 → X.live a = true

/-- How the heap evolves. -/
structure Mono (X Y : Heap α) : Prop where
  nextAddr : X.nextAddr ≤ Y.nextAddr
  nextVec : X.nextVec ≤ Y.nextVec
  live : ∀ a, a < X.nextAddr → Y.live a = true → X.live a = true
  borrow : ∀ a, a < X.nextAddr → Y.borrow a = X.borrow a
  newB : ∀ a, X.nextAddr ≤ a → a < Y.nextAddr → Y.borrow a = 0

theorem Mono.refl (X : Heap α) : Mono X X := ⟨Nat.le_refl _, Nat.le_refl _, fun _ _ h => h, fun _ _ => rfl,
  fun a h1 h2 => absurd (Nat.lt_of_le_of_lt h1 h2) (Nat.lt_irrefl _)⟩

theorem Mono.trans {X Y Z : Heap α} (h1 : Mono X Y) (h2 : Mono Y Z) : Mono X Z :=
  ⟨Nat.le_trans h1.nextAddr h2.nextAddr, Nat.le_trans h1.nextVec h2.nextVec,
    fun a ha hl => h1.live a ha (h2.live a (Nat.lt_of_lt_of_le ha h1.nextAddr) hl),
    fun a ha => (h2.borrow a (Nat.lt_of_lt_of_le ha h1.nextAddr)).trans (h1.borrow a ha),
    fun a ha hb => by
      by_cases hy : a < Y.nextAddr
      · rw [h2.borrow a hy]; exact h1.newB a ha hy
      · exact h2.newB a (Nat.le_of_not_lt hy) hb⟩

/-- The same happens in the larger heap. -/
def RRel (ρ : Ctx α) : Res (Heap α) β → Res (Heap α) β → Prop
  | .ok b X, r => ρ.Fin X → ∃ H, r = .ok b H ∧ HRel ρ X H
  | .err .panic X, r => ρ.Fin X → ∃ H, r = .err .panic H ∧ HRel ρ X H
  | _, _ => True

def Res.heap {σ β : Type} : Res σ β → σ
  | .ok _ s => s
  | .err _ s => s

/-- Code that is robust against extensions of the heap. -/
def Robust (c : M α β) : Prop := ∀ (ρ : Ctx α) (X H : Heap α), HRel ρ X H →
  Mono X (c X).heap ∧ RRel ρ (c X) (c H)

theorem HRel.notP {ρ : Ctx α} {X H : Heap α} (A : HRel ρ X H) {a : Addr} (hl : X.live a = true) : ρ.P a = false := by
  cases hp : ρ.P a with
  | false => rfl
  | true => rw [A.dead a hp] at hl; simp at hl

theorem Ctx.Fin.back {ρ : Ctx α} {X Y H : Heap α} (A : HRel ρ X H) (m : Mono X Y) (f : ρ.Fin Y) : ρ.Fin X :=
  fun a hp he => m.live a (A.bE a he) (f a hp he)

theorem Robust.pure (b : β) : Robust (pure b : M α β) := fun ρ X H A => ⟨.refl X, fun _ => ⟨H, rfl, A⟩⟩

theorem Robust.throw (e : Err) : Robust (M.throw e : M α β) := fun ρ X H A => ⟨.refl X, by
  cases e
  · exact fun _ => ⟨H, rfl, A⟩
  · trivial
  · trivial
  · trivial⟩

theorem Robust.bind {c : M α β} {f : β → M α γ} (hc : Robust c) (hf : ∀ b, Robust (f b)) : Robust (c >>= f) := by
  intro ρ X H A
  obtain ⟨m1, r1⟩ := hc ρ X H A
  simp only [M.bind_apply]
  -- the extension of the intermediate state need not exist unless `Fin` holds there, so the two parts are separate
  cases e1 : c X with
  | err e2 s =>
    rw [e1] at m1 r1
    refine ⟨m1, ?_⟩
    cases e2
    · intro hF
      obtain ⟨H', e3, A'⟩ := r1 hF
      exact ⟨H', by rw [e3]; rfl, A'⟩
    · trivial
    · trivial
    · trivial
  | ok b1 s =>
    rw [e1] at m1 r1
    simp only [Res.bind_ok]
    -- `Mono` of the second part does not depend on the extension: use the trivial one
    have hm2 : Mono s (f b1 s).heap := by
      have A0 : HRel (⟨fun _ => false, s, fun _ => 0, fun _ => none⟩ : Ctx α) s s := by
        refine ⟨?_, ?_, ?_, ?_, ?_, ?_, ?_, ?_, ?_, ?_, rfl, rfl, rfl, ?_, ?_, ?_, ?_, ?_, ?_, ?_, ?_, ?_⟩ <;> intros <;> simp_all
      exact (hf b1 _ s s A0).1
    refine ⟨m1.trans hm2, ?_⟩
    cases e2 : f b1 s with
    | ok b2 s2 =>
      rw [e2] at hm2
      intro hF
      have hF1 : ρ.Fin s := fun a hp he => hm2.live a (Nat.lt_of_lt_of_le (A.bE a he) m1.nextAddr) (hF a hp he)
      obtain ⟨H', e3, A'⟩ := r1 hF1
      have := (hf b1 ρ s H' A').2
      rw [e2] at this
      rw [e3]
      exact this hF
    | err e3 s2 =>
      rw [e2] at hm2
      cases e3 with
      | panic =>
        intro hF
        have hF1 : ρ.Fin s := fun a hp he => hm2.live a (Nat.lt_of_lt_of_le (A.bE a he) m1.nextAddr) (hF a hp he)
        obtain ⟨H', e3, A'⟩ := r1 hF1
        have := (hf b1 ρ s H' A').2
        rw [e2] at this
        rw [e3]
        exact this hF
      | ub => trivial
      | fuel => trivial
      | alloc => trivial

theorem Robust.map {c : M α β} {f : β → γ} (hc : Robust c) : Robust (f <$> c) := by
  have : (f <$> c) = (c >>= fun b => Pure.pure (f b)) := by funext h; simp
  rw [this]
  exact hc.bind fun _ => .pure _

theorem Robust.unwrap (o : Option β) : Robust (unwrap o : M α β) := by
  cases o with
  | none => exact Robust.throw _
  | some b => exact Robust.pure b

/-- Field reads. -/
theorem Robust.rd {f : Heap α → Addr → β} {a : Addr}
    (hf : ∀ ρ X H, HRel ρ X H → ρ.P a = false → f H a = f X a) : Robust (rd f a) := by
  intro ρ X H A
  by_cases hl : X.live a = true
  · rw [rd_ok hl]
    refine ⟨.refl X, fun _ => ⟨H, ?_, A⟩⟩
    rw [rd_ok (A.liveX a hl), hf ρ X H A (A.notP hl)]
  · simp only [Trees.rd, hl, Res.heap]
    exact ⟨.refl X, trivial⟩

theorem rob_getPrev (a : Addr) : Robust (getPrev a : M α _) := Robust.rd fun ρ X H A hp => by rw [A.prev, hp]; rfl
theorem rob_getNext (a : Addr) : Robust (getNext a : M α _) := Robust.rd fun ρ X H A hp => by rw [A.next, hp]; rfl
theorem rob_getHead (a : Addr) : Robust (getHead a : M α _) := Robust.rd fun ρ X H A hp => by rw [A.head, hp]; rfl
theorem rob_getTail (a : Addr) : Robust (getTail a : M α _) := Robust.rd fun ρ X H A hp => by rw [A.tail, hp]; rfl
theorem rob_getUp (a : Addr) : Robust (getUp a : M α _) := Robust.rd fun ρ X H A hp => by rw [A.up, hp]; rfl
theorem rob_getSize (a : Addr) : Robust (getSize a : M α _) := Robust.rd fun ρ X H A hp => by rw [A.size, hp]; rfl
theorem rob_getData (a : Addr) : Robust (getData a : M α _) := Robust.rd fun ρ X H A hp => by rw [A.data, hp]; rfl

theorem pick_upd {β : Type} {P : Addr → Bool} {a : Addr} (hp : P a = false) {f g k : Addr → β} (v : β)
    (hf : ∀ x, f x = pick (P x) (g x) (k x)) : ∀ x, upd f a v x = pick (P x) (g x) (upd k a v x) := by
  intro x
  simp only [upd_apply]
  by_cases hx : x = a
  · subst hx; simp [hp]
  · simp [hx, hf]

theorem Robust.wr {f : Heap α → Heap α} {a : Addr}
    (hf : ∀ ρ X H, HRel ρ X H → ρ.P a = false → HRel ρ (f X) (f H))
    (hm : ∀ X, Mono X (f X)) : Robust (wr f a) := by
  intro ρ X H A
  by_cases hl : X.live a = true
  · rw [wr_ok hl]
    refine ⟨hm X, fun _ => ⟨f H, ?_, hf ρ X H A (A.notP hl)⟩⟩
    rw [wr_ok (A.liveX a hl)]
  · simp only [Trees.wr, hl, Res.heap]
    exact ⟨.refl X, trivial⟩

theorem Mono.of_same {X Y : Heap α} (h1 : Y.live = X.live) (h2 : Y.nextAddr = X.nextAddr) (h3 : Y.nextVec = X.nextVec)
    (h4 : Y.borrow = X.borrow) : Mono X Y :=
  ⟨Nat.le_of_eq h2.symm, Nat.le_of_eq h3.symm, fun a _ h => by rwa [h1] at h, fun a _ => by rw [h4],
    fun a g1 g2 => by rw [h2] at g2; exact absurd (Nat.lt_of_le_of_lt g1 g2) (Nat.lt_irrefl _)⟩

theorem rob_setPrev (a : Addr) (v) : Robust (setPrev a v : M α _) :=
  Robust.wr (fun ρ X H A hp => { A with prev := pick_upd hp v A.prev }) fun X => .of_same rfl rfl rfl rfl
theorem rob_setNext (a : Addr) (v) : Robust (setNext a v : M α _) :=
  Robust.wr (fun ρ X H A hp => { A with next := pick_upd hp v A.next }) fun X => .of_same rfl rfl rfl rfl
theorem rob_setHead (a : Addr) (v) : Robust (setHead a v : M α _) :=
  Robust.wr (fun ρ X H A hp => { A with head := pick_upd hp v A.head }) fun X => .of_same rfl rfl rfl rfl
theorem rob_setTail (a : Addr) (v) : Robust (setTail a v : M α _) :=
  Robust.wr (fun ρ X H A hp => { A with tail := pick_upd hp v A.tail }) fun X => .of_same rfl rfl rfl rfl
theorem rob_setUp (a : Addr) (v) : Robust (setUp a v : M α _) :=
  Robust.wr (fun ρ X H A hp => { A with up := pick_upd hp v A.up }) fun X => .of_same rfl rfl rfl rfl
theorem rob_setSize (a : Addr) (v) : Robust (setSize a v : M α _) :=
  Robust.wr (fun ρ X H A hp => { A with size := pick_upd hp v A.size }) fun X => .of_same rfl rfl rfl rfl
theorem rob_setData (a : Addr) (v) : Robust (setData a v : M α _) :=
  Robust.wr (fun ρ X H A hp => { A with data := pick_upd hp v A.data }) fun X => .of_same rfl rfl rfl rfl

theorem rob_logDrop (d : α) : Robust (logDrop d : M α _) := by
  intro ρ X H A
  exact ⟨.of_same rfl rfl rfl rfl, fun _ => ⟨_, rfl, { A with log := by simp [A.log] }⟩⟩

/-- Loop budgets that only depend on the number of addresses. -/
theorem Robust.fuelled {f : Nat → M α β} (hf : ∀ n, Robust (f n)) : Robust (M.fuelled fun h => f h.nextAddr) := by
  intro ρ X H A
  simp only [M.fuelled_apply, A.nextAddr]
  exact hf _ ρ X H A

theorem rob_makeNode (d : Data α) : Robust (makeNode d) := by
  intro ρ X H A
  have hp : ρ.P X.nextAddr = false := by
    cases hp : ρ.P X.nextAddr with
    | false => rfl
    | true => exact absurd (A.bP _ hp) (Nat.lt_irrefl _)
  have he : ρ.e X.nextAddr = 0 := by
    by_contra he
    exact absurd (A.bE _ he) (Nat.lt_irrefl _)
  refine ⟨⟨Nat.le_succ _, Nat.le_refl _, ?_, ?_, ?_⟩, fun _ => ⟨_, by simp only [makeNode, A.nextAddr]; rfl, ?_⟩⟩
  · intro a ha hl
    have hne : a ≠ X.nextAddr := Nat.ne_of_lt ha
    simpa [makeNode, Res.heap, upd_apply, hne] using hl
  · intro a ha
    have hne : a ≠ X.nextAddr := Nat.ne_of_lt ha
    simp [makeNode, Res.heap, upd_apply, hne]
  · intro a h1 h2
    have : a = X.nextAddr := Nat.le_antisymm (Nat.le_of_lt_succ h2) h1
    subst this
    simp [makeNode, Res.heap]
  · refine ⟨pick_upd hp _ A.prev, pick_upd hp _ A.next, pick_upd hp _ A.head, pick_upd hp _ A.tail, pick_upd hp _ A.up,
      pick_upd hp _ A.size, pick_upd hp _ A.data, pick_upd hp _ A.borrow, ?_, A.vec, by simp, A.nextVec, A.log,
      ?_, ?_, ?_, ?_, ?_, ?_, A.bR, A.same, A.blk⟩
    · intro a
      simp only [upd_apply]
      by_cases ha : a = X.nextAddr
      · subst ha; simp [hp, he]
      · simp only [ha, if_false]; exact A.count a
    · intro a ha
      have hne : a ≠ X.nextAddr := fun e => by rw [e, hp] at ha; simp at ha
      simp only [upd_apply, hne, if_false]; exact A.liveP a ha
    · intro a ha
      simp only [upd_apply] at ha ⊢
      split
      · rfl
      · rename_i hne; rw [if_neg hne] at ha; exact A.liveX a ha
    · intro a hpa ha
      simp only [upd_apply] at ha ⊢
      split
      · exact .inl rfl
      · rename_i hne; rw [if_neg hne] at ha; exact A.liveH a hpa ha
    · intro a ha
      have hne : a ≠ X.nextAddr := fun e => by rw [e, hp] at ha; simp at ha
      simp only [upd_apply, hne, if_false]; exact A.dead a ha
    · intro a ha; exact Nat.lt_succ_of_lt (A.bP a ha)
    · intro a ha; exact Nat.lt_succ_of_lt (A.bE a ha)

theorem rob_rcDrop (o : Addr) : Robust (rcDrop o : M α _) := by
  intro ρ X H A
  simp only [rcDrop]
  by_cases hl : X.live o = true
  · have hp := A.notP hl
    have hc : H.count o = X.count o + ρ.e o := by rw [A.count, hp]; rfl
    have hd : H.data o = X.data o := by rw [A.data, hp]; rfl
    simp only [hl, A.liveX o hl, if_true]
    by_cases h1 : X.count o = 1
    · simp only [h1, if_true]
      refine ⟨⟨Nat.le_refl _, Nat.le_refl _, ?_, fun _ _ => rfl, ?_⟩, fun hF => ?_⟩
      · intro a _ ha
        simp only [Res.heap, upd_apply] at ha
        split at ha
        · simp at ha
        · exact ha
      · intro a g1 g2; exact absurd (Nat.lt_of_le_of_lt g1 g2) (Nat.lt_irrefl _)
      · have he : ρ.e o = 0 := by
          by_contra he
          have := hF o hp he
          simp at this
        rw [he, h1] at hc
        simp only [hc, hd, if_true, Nat.add_zero]
        refine ⟨_, rfl, { A with count := ?_, liveP := ?_, liveX := ?_, liveH := ?_, dead := ?_, log := by simp [A.log] }⟩
        · intro a
          simp only [upd_apply]
          by_cases ha : a = o
          · subst ha; simp [hp, he]
          · simp only [ha, if_false]; exact A.count a
        · intro a ha
          have hne : a ≠ o := fun e => by rw [e, hp] at ha; simp at ha
          simp only [upd_apply, hne, if_false]; exact A.liveP a ha
        · intro a ha
          simp only [upd_apply] at ha ⊢
          split at ha
          · simp at ha
          · rename_i hne; rw [if_neg hne]; exact A.liveX a ha
        · intro a hpa ha
          simp only [upd_apply] at ha ⊢
          split at ha
          · simp at ha
          · rename_i hne; rw [if_neg hne]; exact A.liveH a hpa ha
        · intro a ha
          simp only [upd_apply]
          split
          · rfl
          · exact A.dead a ha
    · simp only [h1, if_false]
      by_cases h0 : X.count o = 0
      · simp only [h0, if_true]; exact ⟨.refl X, trivial⟩
      · simp only [h0, if_false]
        refine ⟨.of_same rfl rfl rfl rfl, fun hF => ?_⟩
        have g1 : H.count o ≠ 1 := by omega
        have g0 : H.count o ≠ 0 := by omega
        simp only [g1, g0, if_false]
        refine ⟨_, rfl, { A with count := ?_ }⟩
        intro a
        simp only [upd_apply]
        by_cases ha : a = o
        · subst ha; simp only [if_true, hp, pick_false]; omega
        · simp only [ha, if_false]; exact A.count a
  · simp only [hl]; exact ⟨.refl X, trivial⟩

theorem rob_decrRef (v : Nat) : Robust (decrRef v : M α _) := by
  intro ρ X H A
  simp only [decrRef]
  cases hv : X.vec v with
  | none => exact ⟨.refl X, trivial⟩
  | some nv =>
    have hH := A.vec v
    rw [hv] at hH
    by_cases h0 : nv.refCnt = 0
    · simp only [h0, if_true]
      refine ⟨.refl X, fun hF => ?_⟩
      cases hr : ρ.R v with
      | none => rw [hr, addVec_none] at hH; simp only [hH, h0, if_true]; exact ⟨H, rfl, A⟩
      | some b => have := (A.same v nv b hv hr).2.2; omega
    · simp only [h0, if_false]
      by_cases h1 : nv.refCnt - 1 = 0
      · simp only [h1, if_true]
        refine ⟨⟨Nat.le_refl _, Nat.le_refl _, ?_, fun _ _ => rfl, ?_⟩, fun hF => ?_⟩
        · intro a _ ha
          simp only [Res.heap, killRange] at ha
          split at ha
          · simp at ha
          · exact ha
        · intro a g1 g2; exact absurd (Nat.lt_of_le_of_lt g1 g2) (Nat.lt_irrefl _)
        · cases hr : ρ.R v with
          | none =>
            rw [hr, addVec_none] at hH
            have hb := A.blk v nv hv hr
            simp only [hH, h0, h1, if_true, if_false]
            refine ⟨_, rfl, { A with vec := ?_, liveP := ?_, liveX := ?_, liveH := ?_, dead := ?_, same := ?_, blk := ?_ }⟩
            · intro w
              simp only [upd_apply]
              by_cases hw : w = v
              · subst hw; simp [hr]
              · simp only [hw, if_false]; exact A.vec w
            · intro a ha
              simp only [killRange]
              split
              · rename_i hin; rw [hb a hin] at ha; simp at ha
              · exact A.liveP a ha
            · intro a ha
              simp only [killRange] at ha ⊢
              split at ha
              · simp at ha
              · rename_i hin; rw [if_neg hin]; exact A.liveX a ha
            · intro a hpa ha
              simp only [killRange] at ha ⊢
              split at ha
              · simp at ha
              · rename_i hin
                rw [if_neg hin]
                rcases A.liveH a hpa ha with h | ⟨w, b, g1, g2, g3⟩
                · exact .inl h
                · refine .inr ⟨w, b, g1, ?_, g3⟩
                  simp only [upd_apply]; split
                  · rfl
                  · exact g2
            · intro a ha
              simp only [killRange]
              split
              · rfl
              · exact A.dead a ha
            · intro w x y hw
              simp only [upd_apply] at hw
              split at hw
              · simp at hw
              · exact A.same w x y hw
            · intro w x hw
              simp only [upd_apply] at hw
              split at hw
              · simp at hw
              · exact A.blk w x hw
          | some b =>
            obtain ⟨s1, s2, s3⟩ := A.same v nv b hv hr
            have hbp := (A.bR v b hr).2
            rw [hr] at hH
            simp only [addVec] at hH
            have g0 : nv.refCnt + b.refCnt ≠ 0 := by omega
            have g1 : nv.refCnt + b.refCnt - 1 ≠ 0 := by omega
            simp only [hH, g0, g1, if_false]
            refine ⟨_, rfl, { A with vec := ?_, liveP := A.liveP, liveX := ?_, liveH := ?_, dead := ?_, same := ?_, blk := ?_ }⟩
            · intro w
              simp only [upd_apply]
              by_cases hw : w = v
              · subst hw
                simp only [if_true, hr, none_addVec, Option.some.injEq]
                cases b
                simp only [NodeVec.mk.injEq] at *
                refine ⟨s1.symm, s2.symm, ?_⟩
                omega
              · simp only [hw, if_false]; exact A.vec w
            · intro a ha
              simp only [killRange] at ha
              split at ha
              · simp at ha
              · exact A.liveX a ha
            · intro a hpa ha
              rcases A.liveH a hpa ha with h | ⟨w, b', g1, g2, g3⟩
              · simp only [killRange]
                split
                · rename_i hin
                  refine .inr ⟨v, b, hr, by simp, ?_⟩
                  simp only [InVec, s1, s2]; exact hin
                · exact .inl h
              · refine .inr ⟨w, b', g1, ?_, g3⟩
                simp only [upd_apply]; split
                · rfl
                · exact g2
            · intro a ha
              simp only [killRange]
              split
              · rfl
              · exact A.dead a ha
            · intro w x y hw
              simp only [upd_apply] at hw
              split at hw
              · simp at hw
              · exact A.same w x y hw
            · intro w x hw
              simp only [upd_apply] at hw
              split at hw
              · simp at hw
              · exact A.blk w x hw
      · simp only [h1, if_false]
        refine ⟨.of_same rfl rfl rfl rfl, fun hF => ?_⟩
        have key : ∃ nv', H.vec v = some nv' ∧ nv'.refCnt ≠ 0 ∧ nv'.refCnt - 1 ≠ 0 ∧
            some { nv' with refCnt := nv'.refCnt - 1 } = addVec (some { nv with refCnt := nv.refCnt - 1 }) (ρ.R v) := by
          cases hr : ρ.R v with
          | none => rw [hr, addVec_none] at hH; exact ⟨nv, hH, h0, h1, rfl⟩
          | some b =>
            rw [hr] at hH
            refine ⟨_, hH, ?_, ?_, ?_⟩
            · simp only; omega
            · simp only; omega
            · simp only [addVec, Option.some.injEq, NodeVec.mk.injEq, true_and]
              omega
        obtain ⟨nv', k1, k2, k3, k4⟩ := key
        simp only [k1, k2, k3, if_false]
        refine ⟨_, rfl, { A with vec := ?_, same := ?_, liveH := ?_, blk := ?_ }⟩
        · intro w
          simp only [upd_apply]
          by_cases hw : w = v
          · subst hw; simp only [if_true]; exact k4
          · simp only [hw, if_false]; exact A.vec w
        · intro a hpa ha
          rcases A.liveH a hpa ha with h | ⟨w, b', g1, g2, g3⟩
          · exact .inl h
          · refine .inr ⟨w, b', g1, ?_, g3⟩
            have : w ≠ v := fun e => by rw [e, hv] at g2; simp at g2
            simp only [upd_apply, this, if_false]; exact g2
        · intro w x y hw hy
          simp only [upd_apply] at hw
          split at hw
          · rename_i hwv
            subst hwv
            simp only [Option.some.injEq] at hw
            subst hw
            obtain ⟨s1, s2, s3⟩ := A.same _ nv y hv hy
            exact ⟨s1, s2, by simp only; omega⟩
          · exact A.same w x y hw hy
        · intro w x hw hy
          simp only [upd_apply] at hw
          split at hw
          · rename_i hwv
            subst hwv
            simp only [Option.some.injEq] at hw
            subst hw
            exact A.blk _ nv hv hy
          · exact A.blk w x hw hy

theorem pick_range {β : Type} {P : Addr → Bool} {q : Addr → Prop} [DecidablePred q] (hp : ∀ a, q a → P a = false)
    {f g k : Addr → β} (v : β) (hf : ∀ x, f x = pick (P x) (g x) (k x)) :
    ∀ x, (if q x then v else f x) = pick (P x) (g x) (if q x then v else k x) := by
  intro x
  by_cases hx : q x
  · simp [hx, hp x hx]
  · simp [hx, hf]

theorem rob_newVec (cap : Nat) : Robust (newVec cap : M α _) := by
  intro ρ X H A
  have hp : ∀ a, (X.nextAddr ≤ a ∧ a < X.nextAddr + cap) → ρ.P a = false := by
    intro a ha
    cases hp : ρ.P a with
    | false => rfl
    | true => exact absurd (Nat.lt_of_lt_of_le (A.bP _ hp) ha.1) (Nat.lt_irrefl _)
  have he : ∀ a, (X.nextAddr ≤ a ∧ a < X.nextAddr + cap) → ρ.e a = 0 := by
    intro a ha
    by_contra he
    exact absurd (Nat.lt_of_lt_of_le (A.bE _ he) ha.1) (Nat.lt_irrefl _)
  have hr : ρ.R X.nextVec = none := by
    cases hr : ρ.R X.nextVec with
    | none => rfl
    | some b => exact absurd (A.bR _ _ hr).1 (Nat.lt_irrefl _)
  refine ⟨⟨Nat.le_add_right _ _, Nat.le_succ _, ?_, ?_, ?_⟩, fun _ => ⟨_, by simp only [newVec, A.nextAddr, A.nextVec]; rfl, ?_⟩⟩
  · intro a ha hl
    have hne : ¬ (X.nextAddr ≤ a ∧ a < X.nextAddr + cap) := fun h => absurd (Nat.lt_of_lt_of_le ha h.1) (Nat.lt_irrefl _)
    simpa [newVec, Res.heap, hne] using hl
  · intro a ha
    have hne : ¬ (X.nextAddr ≤ a ∧ a < X.nextAddr + cap) := fun h => absurd (Nat.lt_of_lt_of_le ha h.1) (Nat.lt_irrefl _)
    simp only [newVec, Res.heap, hne, if_false]
  · intro a h1 h2
    have : X.nextAddr ≤ a ∧ a < X.nextAddr + cap := ⟨h1, h2⟩
    simp only [newVec, Res.heap, this, and_self, if_true]
  · refine ⟨pick_range hp _ A.prev, pick_range hp _ A.next, pick_range hp _ A.head, pick_range hp _ A.tail,
      pick_range hp _ A.up, pick_range hp _ A.size, pick_range hp _ A.data, pick_range hp _ A.borrow, ?_, ?_, rfl, rfl, A.log,
      ?_, ?_, ?_, ?_, ?_, ?_, ?_, ?_, ?_⟩
    · intro a
      by_cases ha : X.nextAddr ≤ a ∧ a < X.nextAddr + cap
      · simp [ha, hp a ha, he a ha]
      · simp only [ha, if_false]; exact A.count a
    · intro w
      simp only [upd_apply]
      by_cases hw : w = X.nextVec
      · subst hw; simp [hr]
      · simp only [hw, if_false]; exact A.vec w
    · intro a ha
      have hne : ¬ (X.nextAddr ≤ a ∧ a < X.nextAddr + cap) := fun e => by rw [hp a e] at ha; simp at ha
      simp only [hne, if_false]; exact A.liveP a ha
    · intro a ha
      simp only at ha ⊢
      split
      · rfl
      · rename_i hne; rw [if_neg hne] at ha; exact A.liveX a ha
    · intro a hpa ha
      simp only at ha ⊢
      split
      · exact .inl rfl
      · rename_i hne
        rw [if_neg hne] at ha
        rcases A.liveH a hpa ha with h | ⟨w, b, g1, g2, g3⟩
        · exact .inl h
        · refine .inr ⟨w, b, g1, ?_, g3⟩
          have hw : w ≠ X.nextVec := fun e => by rw [e, hr] at g1; simp at g1
          simp only [upd_apply, hw, if_false]; exact g2
    · intro a ha
      have hne : ¬ (X.nextAddr ≤ a ∧ a < X.nextAddr + cap) := fun e => by rw [hp a e] at ha; simp at ha
      simp only [hne, if_false]; exact A.dead a ha
    · intro a ha; exact Nat.lt_of_lt_of_le (A.bP a ha) (Nat.le_add_right _ _)
    · intro a ha; exact Nat.lt_of_lt_of_le (A.bE a ha) (Nat.le_add_right _ _)
    · intro w b hw; exact ⟨Nat.lt_succ_of_lt (A.bR w b hw).1, (A.bR w b hw).2⟩
    · intro w x y hw hy
      simp only [upd_apply] at hw
      split at hw
      · rename_i e; subst e; rw [hr] at hy; simp at hy
      · exact A.same w x y hw hy
    · intro w x hw hy a ha
      simp only [upd_apply] at hw
      split at hw
      · simp only [Option.some.injEq] at hw; subst hw; exact hp a ha
      · exact A.blk w x hw hy a ha

theorem rob_vecNode (v i : Nat) : Robust (vecNode v i : M α _) := by
  intro ρ X H A
  simp only [vecNode]
  cases hv : X.vec v with
  | none => exact ⟨.refl X, trivial⟩
  | some nv =>
    have hH := A.vec v
    rw [hv] at hH
    have key : ∃ nv', H.vec v = some nv' ∧ nv'.base = nv.base ∧ nv'.cap = nv.cap := by
      cases hr : ρ.R v with
      | none => rw [hr, addVec_none] at hH; exact ⟨nv, hH, rfl, rfl⟩
      | some b => rw [hr] at hH; exact ⟨_, hH, rfl, rfl⟩
    obtain ⟨nv', k1, k2, k3⟩ := key
    simp only [k1, k2, k3]
    split
    · exact ⟨.refl X, fun _ => ⟨H, rfl, A⟩⟩
    · exact ⟨.refl X, trivial⟩

/-- A budget read from the node itself. -/
theorem Robust.fuelled_size {f : Size → M α β} {a : Addr} (hf : ∀ n, Robust (f n))
    (hl : ∀ n h, h.live a = false → ∃ e h', f n h = .err e h' ∧ e ≠ .panic) : Robust (M.fuelled fun h => f (h.size a)) := by
  intro ρ X H A
  simp only [M.fuelled_apply]
  refine ⟨(hf _ ρ X H A).1, ?_⟩
  by_cases hx : X.live a = true
  · have : H.size a = X.size a := by rw [A.size, A.notP hx]; rfl
    rw [this]
    exact (hf _ ρ X H A).2
  · obtain ⟨e, h', e1, e2⟩ := hl (X.size a) X (by simpa using hx)
    rw [e1]
    cases e
    · exact absurd rfl e2
    · trivial
    · trivial
    · trivial

end Trees
