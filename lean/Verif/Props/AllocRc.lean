import Verif.Proof.AllocRcStep
import Verif.Proof.SharedSafe
import Verif.Props.Alloc
import Verif.Props.SharedProgram
/-
C58: with shared nodes as well, nothing depends on where the allocator puts nodes; memory can be reused as soon as it has
been given back (the box of a node that a `WeakNode` refers to has not).
-/
namespace Trees
set_option linter.unusedSimpArgs false
set_option linter.unusedVariables false
variable {α β γ : Type}

/-- The machine after a call. -/
def RMachine.after (m : RMachine α) (op : ROp α) : RMachine α := match rstep m op with
  | .ok m' _ => m'
  | .panic m' => m'
  | _ => m

/-- No call of the program is one of the known defects (`Safe`), or it is not a program that the compiler accepts. -/
def SafeRun (m : RMachine α) : List (ROp α) → Prop
  | [] => True
  | op :: ops => (Safe m op ∨ rstep m op = .rejected) ∧ SafeRun (m.after op) ops

namespace Proof

theorem al_readLab {A : Alloc} {P : Prop} : ∀ (k : Nat) (a : Addr),
    ASim A P (RTree.map fun x => (A.addr x.1, x.2)) (readLab k (A.addr a) : M α _) (readLab k a) := by
  intro k
  induction k with
  | zero => intro a; exact .throw _
  | succ k ih =>
    intro a
    have many : ∀ as, ASim A P (RTree.mapL fun x => (A.addr x.1, x.2)) (readMany (readLab k) (as.map A.addr) : M α _) (readMany (readLab k) as) := by
      intro as
      induction as with
      | nil => exact .pure rfl
      | cons b bs ihb => exact (ih b).bind fun t => ihb.bind fun ts => .pure rfl
    exact (al_dataRef a).bindId fun d => (al_children a).bind fun cs => (many cs).bind fun ts => .pure rfl

theorem readNode_dead {a : Addr} {h : Heap α} (hl : h.live a = false) : ∃ h', readNode a h = .err .ub h' := by
  refine ⟨h, ?_⟩
  simp [readNode, M.fuelled_apply, readLab, dataRef, getData, rd, hl]

theorem al_readNode {A : Alloc} {P : Prop} (a : Addr) :
    ASim A P (RTree.map fun x => (A.addr x.1, x.2)) (readNode (A.addr a) : M α _) (readNode a) :=
  ASim.fuelledSize (k := fun s => readLab (s.descendants + 1) (A.addr a)) (k' := fun s => readLab (s.descendants + 1) a)
    (fun s => al_readLab _ _) fun H s hl => ⟨H, by simp [readLab, dataRef, getData, rd, hl]⟩

section
variable {A : Alloc} {m m' : RMachine α} (S : RMSim A m m')
include S

theorem rmsim_view : m.excl.view = m'.excl.view := by
  funext x
  simp only [Machine.view, RMachine.excl]
  rw [S.rel.at x]
  cases he : m'.env x with
  | none => rfl
  | some hd =>
    obtain ⟨G, K, T, I, B⟩ := S.safe.si
    obtain ⟨v, -, hv⟩ := I.hden he
    simp only [Machine.view, RMachine.excl, he] at hv
    simp only [Option.map_some]
    cases e : readHandle hd m'.heap with
    | err x h => rw [e] at hv; simp at hv
    | ok w H' =>
      obtain ⟨L', e1⟩ := ASim.look (al_readHandle hd) S.rel.heap e
      rw [e1]
      rfl

theorem rmsim_store : m.excl.store = m'.excl.store := by
  simp only [Machine.store]
  rw [rmsim_view S]
  simp only [RMachine.excl]
  rw [S.rel.fresh, S.rel.heap.log]

theorem rmsim_at {k : Var} {r : RcRef} (h : m'.refs k = some (.rc r)) : (r.ren A).at m.heap = A.addr (r.at m'.heap) := by
  cases r with
  | scattered a => rfl
  | piled v i =>
    obtain ⟨G, K, T, I, B⟩ := S.safe.si
    obtain ⟨a, h1, nv, d, h2, h3, h4, h5⟩ := I.rcs k _ h
    obtain ⟨nv', h6, h7, h8⟩ : ∃ nv', m'.heap.vec v = some nv' ∧ nv'.base = nv.base ∧ nv'.cap = nv.cap := by
      rw [I.heap]
      simp [bumpE, bumpZ, Heap.over, bumpVec, h2]
    simp only [RcRef.ren, RcRef.at, h6, S.rel.heap.vec v nv' h6]
    exact (S.rel.heap.slots v nv' h6 i (by rw [h8]; exact h3)).symm

theorem rmsim_look (k : Var) : m.look k = (m'.look k).map (RTree.map fun x => (A.addr x.1, x.2)) := by
  simp only [RMachine.look]
  rw [S.rel.ref k]
  cases hk : m'.refs k with
  | none => rfl
  | some q => cases q with
    | rc r =>
      obtain ⟨t, ht⟩ := si_ref S.safe.si hk
      simp only [RMachine.look, hk] at ht
      simp only [Option.map_some, Ref.ren]
      rw [rmsim_at S hk]
      cases e : readNode (r.at m'.heap) m'.heap with
      | err x h => rw [e] at ht; simp at ht
      | ok w H' =>
        obtain ⟨L', e1⟩ := ASim.look (al_readNode _) S.rel.heap e
        rw [e1]
        rfl
    | weak q => rfl
    | guard k a w => rfl
    | iter it => rfl

theorem rmsim_shown {a : Addr} (h : m'.Shown a) : m.Shown (A.addr a) := by
  obtain ⟨j, t, h1, h2⟩ := h
  refine ⟨j, _, by rw [rmsim_look S j, h1]; rfl, ?_⟩
  have := RTree.relab_ids A.addr t
  simp only [RTree.relab] at this
  rw [this]
  exact List.mem_map_of_mem h2

theorem rmsim_holds {x : Var} {a : Addr} (h : m'.excl.Holds x a) : m.excl.Holds x (A.addr a) := by
  obtain ⟨p, hp⟩ := h
  refine ⟨p, ?_⟩
  simp only [Machine.nodeAt, RMachine.excl] at hp ⊢
  rw [S.rel.at x]
  cases he : m'.env x with
  | none => rw [he] at hp; simp at hp
  | some hd =>
    rw [he] at hp
    simp only at hp
    simp only [Option.map_some, Handle.ren_addr]
    cases e : locate hd.addr p m'.heap with
    | err y h => rw [e] at hp; simp at hp
    | ok w H' =>
      rw [e] at hp
      obtain ⟨L', e1⟩ := ASim.look (al_locate p hd.addr) S.rel.heap e
      rw [e1]
      simp only at hp ⊢
      rw [hp]; rfl
end

theorem rmsim_empty (A : Alloc) : RMSim A (RMachine.empty : RMachine α) RMachine.empty :=
  ⟨⟨(amrel_empty A).heap, rfl, rfl, rfl⟩, fun w a h => by simp [RMachine.empty] at h, .init⟩

/-- A run with an allocator and the run of the model. -/
theorem runProgA_sim (A : Alloc) : ∀ (ops : List (ROp α)) (m m' : RMachine α), RMSim A m m' → SafeRun m' ops →
    match runProgA A m ops with
    | none => ¬ A.Bump
    | some (m1, os) => os = (runProg rstep m' ops).2 ∧ RMSim A m1 (runProg rstep m' ops).1 := by
  intro ops
  induction ops with
  | nil => intro m m' S _; exact ⟨rfl, S⟩
  | cons op ops ih =>
    intro m m' S hs
    have h := S.step hs.1
    have hs2 := hs.2
    simp only [RMachine.after] at hs2
    simp only [runProgA, runProg]
    revert h
    cases e' : rstep m' op with
    | bad =>
      cases rstepA A m op with
      | none => exact fun h => h
      | some q => cases q <;> exact fun h => h.elim
    | ok m1' o' =>
      rw [e'] at hs2
      cases e : rstepA A m op with
      | none => exact fun h => h
      | some q => cases q with
        | ok m1 o =>
          rintro ⟨S1, rfl⟩
          have := ih m1 m1' S1 hs2
          dsimp only
          cases h : runProgA A m1 ops with
          | none => rw [h] at this; exact this
          | some q => rw [h] at this; exact ⟨by simp [this.1], this.2⟩
        | panic m1 => exact fun h => h.elim
        | rejected => exact fun h => h.elim
        | bad => exact fun h => h.elim
    | panic m1' =>
      rw [e'] at hs2
      cases e : rstepA A m op with
      | none => exact fun h => h
      | some q => cases q with
        | panic m1 =>
          intro S1
          have := ih m1 m1' S1 hs2
          dsimp only
          cases h : runProgA A m1 ops with
          | none => rw [h] at this; exact this
          | some q => rw [h] at this; exact ⟨by simp [this.1], this.2⟩
        | ok m1 o => exact fun h => h.elim
        | rejected => exact fun h => h.elim
        | bad => exact fun h => h.elim
    | rejected =>
      rw [e'] at hs2
      cases e : rstepA A m op with
      | none => exact fun h => h
      | some q => cases q with
        | rejected =>
          intro _
          have := ih m m' S hs2
          dsimp only
          cases h : runProgA A m ops with
          | none => rw [h] at this; exact this
          | some q => rw [h] at this; exact ⟨by simp [this.1], this.2⟩
        | ok m1 o => exact fun h => h.elim
        | panic m1 => exact fun h => h.elim
        | bad => exact fun h => h.elim

/-- What the specification allows is safe. -/
theorem safeRun_of : ∀ (ops : List (ROp α)) {m : RMachine α} {s : SStore α}, (∃ φ, SSim φ m s) → BoxedCalls m ops = true →
    Allowed (runProg sstep s ops).2 → SafeRun m ops
  | [], _, _, _, _, _ => trivial
  | op :: ops, m, s, S, h1, h2 => by
    obtain ⟨φ', S⟩ := S
    simp only [BoxedCalls, Bool.and_eq_true] at h1
    have hb : sstep s op ≠ .bad := by
      intro e
      simp only [runProg, e, Allowed] at h2
    have hm := S.call op (boxedOnly_of h1.1) hb
    refine ⟨S.safe op (boxedOnly_of h1.1) hb, ?_⟩
    have h1' := h1.2
    simp only [runProg] at h2
    simp only [RMachine.after]
    cases hr : rstep m op with
    | ok m' o =>
      cases hs : sstep s op with
      | ok s' o' =>
        rw [hr, hs] at hm
        rw [hr] at h1'
        rw [hs] at h2
        exact safeRun_of ops hm.2 h1' h2
      | panic s' => rw [hr, hs] at hm; exact hm.elim
      | rejected => rw [hr, hs] at hm; exact hm.elim
      | bad => exact absurd hs hb
    | panic m' =>
      cases hs : sstep s op with
      | panic s' =>
        rw [hr, hs] at hm
        rw [hr] at h1'
        rw [hs] at h2
        exact safeRun_of ops hm h1' h2
      | ok s' o' => rw [hr, hs] at hm; exact hm.elim
      | rejected => rw [hr, hs] at hm; exact hm.elim
      | bad => exact absurd hs hb
    | rejected =>
      cases hs : sstep s op with
      | rejected =>
        rw [hr] at h1'
        rw [hs] at h2
        exact safeRun_of ops ⟨φ', S⟩ h1' h2
      | ok s' o' => rw [hr, hs] at hm; exact hm.elim
      | panic s' => rw [hr, hs] at hm; exact hm.elim
      | bad => exact absurd hs hb
    | bad => rw [hr] at hm; cases hs : sstep s op <;> rw [hs] at hm <;> exact hm.elim

end Proof

section
variable {A : Alloc} {ops : List (ROp α)} {m : RMachine α} {os : List (Outcome Unit α)}
  (h : runProgA A RMachine.empty ops = some (m, os))
include h

/-- **C58** Wherever an allocator puts nodes and blocks — also in the same places again and again — as long as it does not hand
out memory that has not been given back, every program over the whole API that the specification allows has exactly the
results of the specification, which knows no addresses: answers, panics, contents, destroyed items, the trees below all
handles, whether a weak handle can be upgraded. `φ` tells the address of each identity. -/
theorem c58_program (h1 : BoxedCalls RMachine.empty ops = true) (h2 : Allowed (runProg sstep SStore.empty ops).2) :
    os = (runProg sstep SStore.empty ops).2 ∧ ∃ φ, Described φ m (runProg sstep SStore.empty ops).1 := by
  have hs := Proof.safeRun_of ops ⟨_, ssim_empty⟩ h1 h2
  have := Proof.runProgA_sim A ops _ _ (Proof.rmsim_empty A) hs
  rw [h] at this
  obtain ⟨g1, S⟩ := this
  obtain ⟨g2, φ, Q⟩ := SSim.program (φ := fun _ => 0) ops ⟨_, ssim_empty⟩ h1 h2
  have D := Q.described
  refine ⟨g1.trans g2, fun i => A.addr (φ i), ?_, ?_, ?_⟩
  · rw [Proof.rmsim_store S]; exact D.excl
  · intro k
    rw [Proof.rmsim_look S k, D.looks k, Option.map_map]
    congr 1
    funext t
    exact RTree.map_map' _ _ t
  · intro k j t u x y e1 e2 hx hy e
    have live : ∀ {k t x}, (runProg sstep SStore.empty ops).1.look k = some t → x ∈ t.ids →
        (runProg rstep RMachine.empty ops).1.heap.live (φ x) = true := by
      intro k t x e hx
      have hsh : (runProg rstep RMachine.empty ops).1.Shown (φ x) := by
        refine ⟨k, _, by rw [D.looks k, e]; rfl, ?_⟩
        have := RTree.relab_ids φ t
        simp only [RTree.relab] at this
        rw [this]
        exact List.mem_map_of_mem hx
      obtain ⟨G, K, T, I, B⟩ := S.safe.si
      have := (I.shown.mp hsh).1.1
      rw [I.heap]; exact this
    exact D.distinct k j t u x y e1 e2 hx hy (S.rel.heap.inj _ _ (.inl (live e1 hx)) (.inl (live e2 hy)) e)

/-- **C58** also with handles to nodes in blocks: a program without the known defects does what it does if memory is never reused. -/
theorem c58_same (hs : SafeRun RMachine.empty ops) : os = (runProg rstep RMachine.empty ops).2 ∧
    m.excl.store = (runProg rstep RMachine.empty ops).1.excl.store ∧
    ∀ k, m.look k = ((runProg rstep RMachine.empty ops).1.look k).map (RTree.map fun x => (A.addr x.1, x.2)) := by
  have := Proof.runProgA_sim A ops _ _ (Proof.rmsim_empty A) hs
  rw [h] at this
  exact ⟨this.1, Proof.rmsim_store this.2, Proof.rmsim_look this.2⟩

/-- **C58** two handles show the same address exactly if they refer to the same node: if and only if they do without reuse. -/
theorem c58_identity (hs : SafeRun RMachine.empty ops) (j k : Var) :
    m.nodeOf j = m.nodeOf k ↔ (runProg rstep RMachine.empty ops).1.nodeOf j = (runProg rstep RMachine.empty ops).1.nodeOf k := by
  have := Proof.runProgA_sim A ops _ _ (Proof.rmsim_empty A) hs
  rw [h] at this
  obtain ⟨-, S⟩ := this
  have nod : ∀ k, m.nodeOf k = ((runProg rstep RMachine.empty ops).1.nodeOf k).map A.addr := by
    intro k
    simp only [RMachine.nodeOf, Proof.rmsim_look S k, Option.map_map]
    congr 1
    funext t
    cases t; rfl
  have live : ∀ {k a}, (runProg rstep RMachine.empty ops).1.nodeOf k = some a → (runProg rstep RMachine.empty ops).1.heap.live a = true := by
    intro k a e
    simp only [RMachine.nodeOf, Option.map_eq_some_iff] at e
    obtain ⟨t, e, rfl⟩ := e
    obtain ⟨G, K, T, I, B⟩ := S.safe.si
    have := (I.shown.mp (show RMachine.Shown _ t.data.1 from ⟨k, t, e, by cases t; simp [RTree.ids, RTree.pre, RTree.data]⟩)).1.1
    rw [I.heap]; exact this
  rw [nod j, nod k]
  constructor
  · intro e
    cases h1 : (runProg rstep RMachine.empty ops).1.nodeOf j with
    | none =>
      cases h2 : (runProg rstep RMachine.empty ops).1.nodeOf k with
      | none => rfl
      | some b => rw [h1, h2] at e; simp at e
    | some a =>
      cases h2 : (runProg rstep RMachine.empty ops).1.nodeOf k with
      | none => rw [h1, h2] at e; simp at e
      | some b =>
        rw [h1, h2] at e
        simp only [Option.map_some, Option.some.injEq] at e
        rw [S.rel.heap.inj a b (.inl (live h1)) (.inl (live h2)) e]
  · intro e; rw [e]

/-- **C58** no leak: a live node is shown by a handle or part of an exclusive value, or a spare slot of a block that contains such
a node. -/
theorem c58_no_leak (hs : SafeRun RMachine.empty ops) {a : Addr} (ha : m.heap.live a = true) :
    (m.Shown a ∨ ∃ x, m.excl.Holds x a) ∨
    ∃ v nv b, m.heap.vec v = some nv ∧ nv.Has a ∧ nv.Has b ∧ (m.Shown b ∨ ∃ x, m.excl.Holds x b) := by
  have := Proof.runProgA_sim A ops _ _ (Proof.rmsim_empty A) hs
  rw [h] at this
  obtain ⟨-, S⟩ := this
  have r := S.rel.heap
  obtain ⟨a', ha', rfl⟩ := r.onto a ha
  have both : ∀ {b}, ((runProg rstep RMachine.empty ops).1.Shown b ∨ ∃ x, (runProg rstep RMachine.empty ops).1.excl.Holds x b) →
      (m.Shown (A.addr b) ∨ ∃ x, m.excl.Holds x (A.addr b)) := by
    rintro b (hb | ⟨x, hb⟩)
    · exact .inl (Proof.rmsim_shown S hb)
    · exact .inr ⟨x, Proof.rmsim_holds S hb⟩
  rcases c34_no_leak S.safe ha' with g | ⟨v, nv, b, g1, g2, g3, g4⟩
  · exact .inl (both g)
  · have has : ∀ {c}, nv.Has c → (⟨A.addr nv.base, nv.cap, nv.refCnt⟩ : NodeVec).Has (A.addr c) := by
      rintro c ⟨k1, k2⟩
      have := r.slots v nv g1 (c - nv.base) (by allomega)
      rw [show nv.base + (c - nv.base) = c from by allomega] at this
      constructor <;> dsimp only <;> allomega
    exact .inr ⟨A.vec v, _, A.addr b, r.vec v nv g1, has g2, has g3, both g4⟩

/-- **C58** when all handles and exclusive values are gone, all nodes and blocks have been given back (weak handles may be left). -/
theorem c58_all_released (hs : SafeRun RMachine.empty ops) (h1 : ∀ k, m.look k = none) (h2 : ∀ x, m.excl.view x = none) :
    (∀ a, m.heap.live a = false) ∧ ∀ v, m.heap.vec v = none := by
  have := Proof.runProgA_sim A ops _ _ (Proof.rmsim_empty A) hs
  rw [h] at this
  obtain ⟨-, S⟩ := this
  obtain ⟨g1, g2⟩ := c34_all_released S.safe (fun k => by
    have := h1 k
    rw [Proof.rmsim_look S k, Option.map_eq_none_iff] at this
    exact this) (fun x => by rw [← Proof.rmsim_view S]; exact h2 x)
  constructor
  · intro a
    cases hl : m.heap.live a with
    | false => rfl
    | true =>
      obtain ⟨b, hb, -⟩ := S.rel.heap.onto a hl
      rw [g1 b] at hb
      simp at hb
  · intro v
    cases hv : m.heap.vec v with
    | none => rfl
    | some nv =>
      obtain ⟨w, nw, hw, -⟩ := S.rel.heap.vonto v nv hv
      rw [g2 w] at hw
      simp at hw
end

/-- The hypothesis can be met for every program: an allocator that moves upwards never hands out memory in use. -/
theorem c58_bump {A : Alloc} (hA : A.Bump) (ops : List (ROp α)) (hs : SafeRun RMachine.empty ops) :
    ∃ m os, runProgA A RMachine.empty ops = some (m, os) := by
  have := Proof.runProgA_sim A ops _ _ (Proof.rmsim_empty A) hs
  cases h : runProgA A RMachine.empty ops with
  | none => rw [h] at this; exact absurd hA this
  | some q => exact ⟨q.1, q.2, rfl⟩

/-! ## Concrete cases -/

/-- A child is referred to by a weak handle when its tree is dropped; new nodes are created while the weak handle exists and
after it is gone; one of the trees is copied. -/
def weakProg : List (ROp Nat) :=
  [.excl (.treeNew 1), .excl (.treeNew 2), .excl (.pushBack 0 [] 1), .fromTree 0, .front 2, .downgrade 3, .drop 3, .drop 2,
   .excl (.treeNew 3), .upgrade 4, .fromTree 5, .excl (.treeNew 4), .pushBack 6 7, .deepClone 6 fun _ x => x + 100, .drop 4,
   .excl (.treeNew 5), .pushBack 6 9, .nodeCount 6, .back 6, .data 10, .excl (.nodeCount 8 [])]

def weakProgOut : List (Outcome Unit Nat) :=
  [.ok () (.var 0), .ok () (.var 1), .ok () .unit, .ok () (.var 2), .ok () (.var 3), .ok () (.var 4), .ok () .unit, .ok () .unit,
   .ok () (.var 5), .ok () .none, .ok () (.var 6), .ok () (.var 7), .ok () .unit, .ok () (.var 8), .ok () .unit,
   .ok () (.var 9), .ok () .unit, .ok () (.nat 3), .ok () (.var 10), .ok () (.item (some 5)),
   .ok () (.nat 2)]

/-- The place of the first root is used again at once, that of its child only when the weak handle is gone. -/
def weakAlloc : Alloc where
  addr n := [0, 1, 0, 2, 3, 4, 1].getD n (n + 10)
  vec n := n

attribute [irreducible] weakProg weakAlloc

theorem weakProg_boxed : BoxedCalls RMachine.empty weakProg = true := by decide +kernel
theorem weakProg_out : (runProg sstep SStore.empty weakProg).2 = weakProgOut := by decide +kernel
theorem weakProg_allowed : Allowed (runProg sstep SStore.empty weakProg).2 := by rw [weakProg_out]; simp [weakProgOut, Allowed]
attribute [irreducible] weakProgOut

/-- The hypotheses of the theorems above are met although addresses are reused, one of them after it was pinned. -/
example : SafeRun RMachine.empty weakProg := Proof.safeRun_of _ ⟨_, ssim_empty⟩ weakProg_boxed weakProg_allowed
example : (runProgA weakAlloc RMachine.empty weakProg).isSome = true := by decide +kernel
/-- Seven nodes were allocated, in five places; the new child of the shared node is where the child of the old tree was. -/
example : ((runProgA weakAlloc RMachine.empty weakProg).map fun q =>
    (q.1.heap.nextAddr, (List.range 60).filter q.1.heap.live, q.1.nodeOf 6, q.1.nodeOf 10)) =
    some (7, [0, 1, 2, 3, 4], some 0, some 1) := by decide +kernel
/-- The theorem, used. -/
example : (runProgA weakAlloc RMachine.empty weakProg).map Prod.snd = some weakProgOut := by
  cases h : runProgA weakAlloc RMachine.empty weakProg with
  | none =>
    rw [← Option.isNone_iff_eq_none] at h
    have : (runProgA weakAlloc RMachine.empty weakProg).isNone = false := by decide +kernel
    rw [h] at this; simp at this
  | some q => simp only [Option.map_some]; rw [(c58_program h weakProg_boxed weakProg_allowed).1, weakProg_out]

/-- The contract matters: an allocator that gives out the box that a weak handle refers to is stopped ... -/
def badAlloc : Alloc where
  addr n := [0, 1, 1].getD n (n + 10)
  vec n := n
example : (runProgA badAlloc RMachine.empty (weakProg.take 8)).isSome = true ∧
    (runProgA badAlloc RMachine.empty (weakProg.take 9)).isSome = false := by decide +kernel
/-- ... and without the check the handle to the old child would turn into a handle to the new node. -/
example : ((runProgA badAlloc RMachine.empty (weakProg.take 8)).bind fun q => (rstepRaw badAlloc q.1 (.excl (.treeNew 3))).bind fun o =>
    match o with
    | .ok m _ => match rstep m (.upgrade 4) with
      | .ok m' (.var k) => (m'.look k).map fun t => t.plain.data
      | _ => none
    | _ => none) = some 3 := by decide +kernel

/-- Handles to nodes in blocks: a copy of a tree is shared, its first child gets a second handle, and the block is given
back when the last handle is gone; the next copy is put in the same place, with the same `NodeVec`. -/
def vecProg : List (ROp Nat) :=
  [.excl (.treeNew 1), .excl (.treeNew 2), .excl (.pushBack 0 [] 1), .fromTree 0, .deepClone 2 fun _ x => x, .fromTree 3,
   .front 4, .detach 5, .drop 4, .data 5, .drop 5, .deepClone 2 fun _ x => x + 10, .fromTree 6, .front 7, .data 8]
def vecAlloc : Alloc where
  addr n := [0, 1, 2, 3, 2, 3].getD n (n + 10)
  vec _ := 0

/-- Calls that are never a known defect. -/
def ROp.harmless : ROp α → Bool
  | .clone _ | .downgrade _ | .iterNext _ | .intoTree _ => false
  | _ => true

theorem safeRun_of_harmless : ∀ (ops : List (ROp α)) (m : RMachine α), ops.all ROp.harmless = true → SafeRun m ops
  | [], _, _ => trivial
  | op :: ops, m, h => by
    simp only [List.all_cons, Bool.and_eq_true] at h
    refine ⟨.inl ?_, safeRun_of_harmless ops _ h.2⟩
    have := h.1
    cases op <;> first | trivial | simp [ROp.harmless] at this

attribute [irreducible] vecProg vecAlloc
example : SafeRun RMachine.empty vecProg := safeRun_of_harmless _ _ (by decide +kernel)
/-- Six nodes and two blocks were allocated; the handles to the second copy are where those to the first copy were. -/
example : ((runProgA vecAlloc RMachine.empty vecProg).map fun q =>
    (q.1.heap.nextAddr, q.1.heap.nextVec, q.1.nodeOf 7, q.1.nodeOf 8)) = some (6, 2, some 2, some 3) := by decide +kernel
example : ((runProgA vecAlloc RMachine.empty vecProg).map fun q => (q.1.heap.log, q.2.drop 13)) =
    some ([1, 2], [.ok () (.var 8), .ok () (.item (some 12))]) := by decide +kernel

end Trees
