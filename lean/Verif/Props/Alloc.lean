import Verif.Proof.AllocStep
import Verif.Props.Memory
import Verif.Props.Crash
/-
C53: nothing depends on where the allocator puts nodes; in particular memory can be reused.
-/
namespace Trees
set_option linter.unusedSimpArgs false
variable {α β γ : Type}

namespace Proof

theorem ASim.look {A : Alloc} {f : γ → β} {c : M α β} {c' : M α γ} (hc : ASim A False f c c') {L H : Heap α} (r : ARel A L H)
    {b : γ} {H' : Heap α} (e : c' H = .ok b H') : ∃ L', c L = .ok (f b) L' := by
  have h := hc L H r
  rw [e] at h
  cases e1 : c L with
  | ok b1 L' => rw [e1] at h; exact ⟨L', by rw [h.1]⟩
  | err x L' =>
    rw [e1] at h
    cases x with
    | alloc => exact h.elim
    | panic => exact h.elim
    | ub => exact h.elim
    | fuel => exact h.elim

theorem amrel_empty (A : Alloc) : AMRel A (Machine.empty : Machine α) Machine.empty := by
  refine ⟨?_, rfl, rfl⟩
  constructor <;> intros <;> simp_all [Machine.empty, Heap.empty, Heap.Here]

section
variable {A : Alloc} {m m' : Machine α} (r : AMRel A m m') (hr : Reachable m')
include r hr

theorem amrel_view : m.view = m'.view := by
  obtain ⟨K, M⟩ := reachable_minv hr
  funext x
  simp only [Machine.view]
  rw [r.at x]
  have hA := M.abs_store.vars x
  cases he : m'.env x with
  | none => rfl
  | some hd =>
    rw [he] at hA
    obtain ⟨v, -, hv⟩ := hA
    have e2 := hv.read M.inv (M.hnd x hd he)
    obtain ⟨L', e1⟩ := ASim.look (al_readHandle hd) r.heap e2
    simp only [Option.map_some]
    rw [e1, e2]
    rfl

theorem amrel_store : m.store = m'.store := by
  simp only [Machine.store]
  rw [amrel_view r hr, r.fresh, r.heap.log]

theorem amrel_nodeAt (x : Var) (p : Path) : m.nodeAt x p = (m'.nodeAt x p).map A.addr := by
  obtain ⟨K, M⟩ := reachable_minv hr
  simp only [Machine.nodeAt]
  rw [r.at x]
  cases he : m'.env x with
  | none => rfl
  | some hd =>
    have e2 := locate_ok M.inv (M.hnd x hd he).used (p := p)
    obtain ⟨L', e1⟩ := ASim.look (al_locate p hd.addr) r.heap e2
    simp only [Option.map_some, Handle.ren_addr]
    rw [e1, e2]
end

/-- A run with an allocator and the run of the model. -/
theorem execA_sim (A : Alloc) : ∀ (ops : List (Op α)) (m m' : Machine α), AMRel A m m' → Reachable m' →
    match execA A m ops with
    | none => ¬ A.Bump
    | some (m1, os) => os = (exec step m' ops).2 ∧ AMRel A m1 (exec step m' ops).1 ∧ Reachable (exec step m' ops).1 := by
  intro ops
  induction ops with
  | nil => intro m m' r hr; exact ⟨rfl, r, hr⟩
  | cons op ops ih =>
    intro m m' r hr
    have hs := stepA_sim r op
    have hb := c10_never_bad hr op
    simp only [execA, exec]
    revert hs
    cases e' : step m' op with
    | bad => exact absurd e' hb
    | ok m1' o' =>
      cases e : stepA A m op with
      | none => exact fun h => h
      | some q => cases q with
        | ok m1 o =>
          rintro ⟨r1, rfl⟩
          have := ih m1 m1' r1 (.ok hr e')
          dsimp only
          cases h : execA A m1 ops with
          | none => rw [h] at this; exact this
          | some q => rw [h] at this; exact ⟨by simp [this.1, Outcome.map], this.2⟩
        | panic m1 => exact fun h => h.elim
        | rejected => exact fun h => h.elim
        | bad => exact fun h => h.elim
    | panic m1' =>
      cases e : stepA A m op with
      | none => exact fun h => h
      | some q => cases q with
        | panic m1 =>
          intro r1
          have := ih m1 m1' r1 (.panic hr e')
          dsimp only
          cases h : execA A m1 ops with
          | none => rw [h] at this; exact this
          | some q => rw [h] at this; exact ⟨by simp [this.1, Outcome.map], this.2⟩
        | ok m1 o => exact fun h => h.elim
        | rejected => exact fun h => h.elim
        | bad => exact fun h => h.elim
    | rejected =>
      cases e : stepA A m op with
      | none => exact fun h => h
      | some q => cases q with
        | rejected =>
          intro _
          have := ih m m' r hr
          dsimp only
          cases h : execA A m ops with
          | none => rw [h] at this; exact this
          | some q => rw [h] at this; exact ⟨by simp [this.1, Outcome.map], this.2⟩
        | ok m1 o => exact fun h => h.elim
        | panic m1 => exact fun h => h.elim
        | bad => exact fun h => h.elim

end Proof

section
variable {A : Alloc} {ops : List (Op α)} {m : Machine α} {os : List (Outcome Unit α)}
  (h : execA A Machine.empty ops = some (m, os))
include h

/-- **C53** Wherever an allocator puts nodes and blocks — also in the same places again and again — as long as it does not hand
out memory that is in use, every program has exactly the results that the specification gives on plain values: same answers,
same panics, same contents, same destroyed items in the same order, never an access to memory that is not a live node. -/
theorem c53_programs : os = (exec specStep Store.empty ops).2 ∧ m.store = (exec specStep Store.empty ops).1 := by
  have := Proof.execA_sim A ops _ _ (Proof.amrel_empty A) .init
  rw [h] at this
  obtain ⟨h1, h2, h3⟩ := this
  have h4 := c10_programs ops
  exact ⟨by rw [h1, h4.1], by rw [Proof.amrel_store h2 h3, h4.2]⟩

/-- **C53** no node belongs to two variables or to two places in one. -/
theorem c53_no_sharing {x y : Var} {p q : Path} {a : Addr} (h1 : m.nodeAt x p = some a) (h2 : m.nodeAt y q = some a) :
    x = y ∧ p = q := by
  have := Proof.execA_sim A ops _ _ (Proof.amrel_empty A) .init
  rw [h] at this
  obtain ⟨-, r, hr⟩ := this
  rw [Proof.amrel_nodeAt r hr] at h1 h2
  obtain ⟨a1, g1, e1⟩ := Option.map_eq_some_iff.mp h1
  obtain ⟨a2, g2, e2⟩ := Option.map_eq_some_iff.mp h2
  obtain ⟨K, M⟩ := Proof.reachable_minv hr
  have l1 := (Proof.holds_used M ⟨p, g1⟩).1
  have l2 := (Proof.holds_used M ⟨q, g2⟩).1
  obtain rfl := r.heap.inj a1 a2 (.inl l1) (.inl l2) (e1.trans e2.symm)
  exact c14_no_sharing hr g1 g2

/-- **C53** no leak: a live node is a node of some variable's value, or a spare slot of a block that contains such a node. -/
theorem c53_no_leak {a : Addr} (ha : m.heap.live a = true) :
    (∃ x, m.Holds x a) ∨ ∃ v nv b x, m.heap.vec v = some nv ∧ nv.Has a ∧ nv.Has b ∧ m.Holds x b := by
  have := Proof.execA_sim A ops _ _ (Proof.amrel_empty A) .init
  rw [h] at this
  obtain ⟨-, r, hr⟩ := this
  obtain ⟨a', ha', rfl⟩ := r.heap.onto a ha
  have hold : ∀ {x b}, (exec step Machine.empty ops).1.Holds x b → m.Holds x (A.addr b) := by
    rintro x b ⟨p, hp⟩
    exact ⟨p, by rw [Proof.amrel_nodeAt r hr, hp]; rfl⟩
  rcases c14_no_leak hr ha' with ⟨x, hx⟩ | ⟨v, nv, b, x, g1, g2, g3, g4⟩
  · exact .inl ⟨x, hold hx⟩
  · have has : ∀ {c}, nv.Has c → (⟨A.addr nv.base, nv.cap, nv.refCnt⟩ : NodeVec).Has (A.addr c) := by
      rintro c ⟨k1, k2⟩
      have := r.heap.slots v nv g1 (c - nv.base) (by allomega)
      rw [show nv.base + (c - nv.base) = c from by allomega] at this
      constructor <;> dsimp only <;> allomega
    exact .inr ⟨A.vec v, _, A.addr b, x, r.heap.vec v nv g1, has g2, has g3, hold g4⟩

/-- **C53** when no variable holds anything any more, all memory has been given back to the allocator. -/
theorem c53_all_released (he : ∀ x, m.view x = none) : (∀ a, m.heap.live a = false) ∧ ∀ v, m.heap.vec v = none := by
  have := Proof.execA_sim A ops _ _ (Proof.amrel_empty A) .init
  rw [h] at this
  obtain ⟨-, r, hr⟩ := this
  obtain ⟨h1, h2⟩ := c14_all_released hr (fun x => by rw [← Proof.amrel_view r hr]; exact he x)
  constructor
  · intro a
    cases hl : m.heap.live a with
    | false => rfl
    | true =>
      obtain ⟨b, hb, -⟩ := r.heap.onto a hl
      rw [h1 b] at hb
      simp at hb
  · intro v
    cases hv : m.heap.vec v with
    | none => rfl
    | some nv =>
      obtain ⟨w, nw, hw, -⟩ := r.heap.vonto v nv hv
      rw [h2 w] at hw
      simp at hw
end

/-- **C53** two allocators: the same program, the same results and the same contents. -/
theorem c53_independent {A B : Alloc} {ops : List (Op α)} {m m' : Machine α} {os os' : List (Outcome Unit α)}
    (h : execA A Machine.empty ops = some (m, os)) (h' : execA B Machine.empty ops = some (m', os')) :
    os = os' ∧ m.store = m'.store := by
  obtain ⟨h1, h2⟩ := c53_programs h
  obtain ⟨h3, h4⟩ := c53_programs h'
  exact ⟨h1.trans h3.symm, h2.trans h4.symm⟩

/-- The hypothesis can be met for every program: an allocator that moves upwards never hands out memory in use. -/
theorem c53_bump {A : Alloc} (hA : A.Bump) (ops : List (Op α)) : ∃ m os, execA A Machine.empty ops = some (m, os) := by
  have := Proof.execA_sim A ops _ _ (Proof.amrel_empty A) .init
  cases h : execA A Machine.empty ops with
  | none => rw [h] at this; exact absurd hA this
  | some q => exact ⟨q.1, q.2, rfl⟩

/-! Concrete cases. -/

/-- A program that frees and allocates nodes and blocks in turn. -/
def reuseProg : List (Op Nat) :=
  [.treeNew 10, .treeNew 11, .pushBack 0 [] 1, .mapBfs 0 .root (fun _ d => d + 100),
   .drop 0, .treeNew 12, .drop 2, .treeNew 13, .pushFront 3 [] 4, .mapBfs 3 .root (fun _ d => d + 200),
   .abandon 3, .drop 6, .intoBfs 5 9, .forestNew, .degree 7 []]

/-- An allocator that puts everything into five places, and every block at the place of the first one. -/
def reuseAlloc : Alloc where
  addr n := [0, 1, 2, 3, 1, 0, 2, 3, 4, 0, 1, 1, 2].getD n 50
  vec _ := 7

/-- It keeps its contract on this program: the hypothesis of the theorems above is met although addresses are reused. -/
example : (execA reuseAlloc Machine.empty reuseProg).isSome = true := by decide +kernel
/-- The results; `12(13)` was copied to the place where the copy of `10(11)` had been and then consumed. -/
example : ((execA reuseAlloc Machine.empty reuseProg).map fun q => (q.2.drop 10, q.1.heap.log)) =
    some ([.ok () (.var 6), .ok () .unit,
      .ok () (.visits 1 1 [some (212, 1, 1), some (213, 0, 0), none, none, none, none, none, none, none]),
      .ok () (.var 7), .ok () (.nat 0)], [11, 10, 111, 110, 13]) := by decide +kernel
/-- Thirteen nodes were allocated, and none outside the five places is live; node 2, part of both blocks before, is the
root of the forest now. -/
example : ((execA reuseAlloc Machine.empty reuseProg).map fun q =>
    (q.1.heap.nextAddr, (List.range 60).filter q.1.heap.live, q.1.nodeAt 7 [])) = some (13, [2, 4], some 2) := by
  decide +kernel
/-- An allocator that hands out a place that is in use breaks its contract. -/
example : (execA ⟨fun _ => 0, fun _ => 0⟩ Machine.empty [.treeNew 10, .drop 0, .treeNew 11]).isSome = true ∧
    (execA ⟨fun _ => 0, fun _ => 0⟩ Machine.empty [.treeNew 10, .treeNew 11]).isSome = false := by decide +kernel

theorem fresh_bump : Alloc.fresh.Bump := ⟨fun n => by simp [Alloc.fresh], fun _ _ h => h⟩

end Trees
