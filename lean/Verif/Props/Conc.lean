import Verif.Proof.ConcRead
/-
C61: values that have been sent to different threads.
-/
namespace Trees
set_option linter.unusedSimpArgs false
set_option linter.unusedVariables false
variable {α β γ : Type} {n : Nat}

/-- The block (`NodeVec`) that an owner word names. -/
def blockOf : Data α → Option Nat
  | .piled _ v => some v
  | .piledNone v => some v
  | _ => none

/-- The block (`NodeVec`) in which the node at path `p` in variable `x` is stored; none if the node has been allocated by itself. -/
def Machine.blockAt (m : Machine α) (x : Var) (p : Path) : Option Nat :=
  (m.nodeAt x p).bind fun a => blockOf (m.heap.data a)

/-- No block contains nodes of values that go to different threads. -/
def Machine.Separate (m : Machine α) (own : Var → Fin n) : Prop :=
  ∀ x y p q v, own x ≠ own y → m.blockAt x p = some v → m.blockAt y q ≠ some v

/-- What happened before the threads were started: the program `ops0`, with an allocator `A0`, has reached `m`. The values in the variables
`x` with `own x = i` go to thread `i`. From now on the choices of the allocator on behalf of thread `i` are those of `A i`. -/
structure Spawned (A0 : Alloc) (ops0 : List (Op α)) (m : Machine α) (A : Fin n → Alloc) : Prop where
  run : (execA A0 Machine.empty ops0).map Prod.fst = some m
  addr : ∀ i a, a < m.heap.nextAddr → (A i).addr a = A0.addr a
  vec : ∀ i v, v < m.heap.nextVec → (A i).vec v = A0.vec v

namespace Proof
open Fine

theorem spawned_run {A0 : Alloc} {ops0 : List (Op α)} {m : Machine α} {A : Fin n → Alloc} (h : Spawned A0 ops0 m A) :
    ∃ os, execA A0 Machine.empty ops0 = some (m, os) := by
  have := h.run
  cases e : execA A0 Machine.empty ops0 with
  | none => rw [e] at this; cases this
  | some q => rw [e] at this; obtain ⟨m1, os⟩ := q; cases this; exact ⟨os, rfl⟩

/-- A node of a variable in a block, seen from outside. -/
theorem mine_block {A0 : Alloc} {m m' : Machine α} {K : Addr → List Addr} (r : AMRel A0 m m') (hr : Reachable m') (M : MInv m' K) :
    ∀ x hd a v nv, m'.env x = some hd → Reach K hd.addr a → m'.heap.vec v = some nv → InVec nv a → ∃ p, m.blockAt x p = some (A0.vec v) := by
  intro x hd a v nv e hR hv hin
  obtain ⟨p, hp⟩ := reach_resolve hR
  refine ⟨p, ?_⟩
  have ho := M.hnd x hd e
  have hu := reach_used M ho.used hR
  have hn : m'.nodeAt x p = some a := by simp [Machine.nodeAt, e, locate_ok M.inv ho.used, hp]
  have hd := M.st.owner a hu
  have hdata : m.heap.data (A0.addr a) = (m'.heap.data a).ren A0 := r.heap.data a (.inl hu.1)
  simp only [Machine.blockAt, amrel_nodeAt r hr, hn, Option.map_some, Option.bind_some, hdata]
  cases e1 : m'.heap.data a with
  | none => rw [e1] at hd; exact hd.elim
  | scatteredNone o => rw [e1] at hd; exact absurd hin (hd.2.2 v nv hv)
  | scattered d o => rw [e1] at hd; exact absurd hin (hd.2.2 v nv hv)
  | piledNone w =>
    rw [e1] at hd
    obtain ⟨-, nw, h1, h2⟩ := hd
    rw [M.st.disj w nw v nv a h1 hv h2 hin]; rfl
  | piled d w =>
    rw [e1] at hd
    obtain ⟨-, nw, h1, h2⟩ := hd
    rw [M.st.disj w nw v nv a h1 hv h2 hin]; rfl

theorem separate_apart {A0 : Alloc} {m m' : Machine α} {own : Var → Fin n} {K : Addr → List Addr} (r : AMRel A0 m m') (hr : Reachable m')
    (M : MInv m' K) (sep : m.Separate own) : Apart1 m' K own := by
  have key := mine_block r hr M
  rintro i j a b v nv hij ⟨x, hd, e1, rfl, r1⟩ ⟨y, hd', e2, rfl, r2⟩ hv ha hb
  obtain ⟨p, hp⟩ := key x hd a v nv e1 r1 hv ha
  obtain ⟨q, hq⟩ := key y hd' b v nv e2 r2 hv hb
  exact sep x y p q _ hij hp hq

/-- The parts of memory of the threads when they start. -/
structure Parts (A : Fin n → Alloc) (m : Machine α) (own : Var → Fin n) (ops : Fin n → List (Op α)) (H : Fin n → Heap α) (m' : Fin n → Machine α)
    (K : Fin n → Addr → List Addr) : Prop where
  rel : Fine.Rel A (start m own ops) H
  am : ∀ i, AMRel (A i) (Vars.at ⟨fun x => if own x = i then m.env x else none, m.fresh⟩ (H i)) (m' i)
  inv : ∀ i, MInv (m' i) (K i)
  store : ∀ i, (m' i).store = m.part own i

theorem parts {A0 : Alloc} {ops0 : List (Op α)} {m : Machine α} {A : Fin n → Alloc} (h : Spawned A0 ops0 m A) {own : Var → Fin n}
    (sep : m.Separate own) (ops : Fin n → List (Op α)) : ∃ H m' K, Parts A m own ops H m' K := by
  obtain ⟨os, e0⟩ := spawned_run h
  have ag : ∀ i, Agree A0 (A i) m.heap := fun i => ⟨h.addr i, h.vec i⟩
  have r0 := amrel_agree e0 ⟨fun _ _ => rfl, fun _ _ => rfl⟩
  have r : ∀ i, AMRel (A i) m (Trees.exec Trees.step Machine.empty ops0).1 := fun i => amrel_agree e0 (ag i)
  have hr : Reachable (Trees.exec Trees.step (Machine.empty : Machine α) ops0).1 := by
    have := execA_sim A0 ops0 _ _ (amrel_empty A0) .init
    rw [e0] at this
    exact this.2.2
  obtain ⟨K, M⟩ := reachable_minv hr
  have hs := separate_apart r0 hr M sep
  refine ⟨_, fun i => partM (Trees.exec Trees.step Machine.empty ops0).1 K own i, _, ⟨start_rel r0 ag r M hs ops, fun i => partL_amrel (r i) M hs i, fun i => partM_minv M i, ?_⟩⟩
  intro i
  rw [partM_store M i]
  simp only [Machine.part]
  rw [amrel_view r0 hr, r0.fresh]

theorem parts_good {A : Fin n → Alloc} {m : Machine α} {own : Var → Fin n} {ops : Fin n → List (Op α)} {H : Fin n → Heap α} {m' : Fin n → Machine α}
    {K : Fin n → Addr → List Addr} (P : Parts A m own ops H m' K) (i : Fin n) : Good (A i) (H i, ((start m own ops).th i).prog) := by
  intro e h' hr
  have := exec_run (ops i) _ (H i) (m' i) (K i) (P.am i) (P.inv i)
  rw [show (Fine.exec ⟨fun x => if own x = i then m.env x else none, m.fresh⟩ (ops i)).run (A i) (H i) = .err e h' from hr] at this
  exact this.1

end Proof

section
variable {A0 : Alloc} {ops0 : List (Op α)} {m : Machine α} {A : Fin n → Alloc} (h : Spawned A0 ops0 m A) {own : Var → Fin n}
  (sep : m.Separate own) {ops : Fin n → List (Op α)}
include h sep

/-- **C61** (partial: the values of different threads share no block) Whatever the threads do with their values, and whatever the order of
their accesses, there is never a data race. -/
theorem c61_no_race_partial {sched : List (Fin n)} {s} (e : (Fine.start m own ops).run A sched = some s) : ¬ s.Race := by
  obtain ⟨H, m', K, P⟩ := Proof.parts h sep ops
  obtain ⟨H1, R1, g1, -⟩ := Fine.rel_run P.rel (Proof.parts_good P) e
  exact Fine.rel_norace R1 g1

/-- **C61** (partial) no thread ever accesses memory that is not a live node or block. -/
theorem c61_no_failure_partial {sched : List (Fin n)} {s} (e : (Fine.start m own ops).run A sched = some s) (i : Fin n) (x : Err) :
    (s.th i).prog ≠ .fail x := by
  obtain ⟨H, m', K, P⟩ := Proof.parts h sep ops
  intro hx
  have := Fine.full_run P.rel (Proof.parts_good P) (fun j => Fine.full_exec _ _) e i
  rw [hx] at this
  exact this

/-- **C61** (partial) a thread that has finished has had exactly the results that the specification gives for its program run alone on
the values it was sent: the same answers and panics, the same contents in its variables, the same items destroyed in the same order. -/
theorem c61_results_partial {sched : List (Fin n)} {s} (e : (Fine.start m own ops).run A sched = some s) {i : Fin n} {v : Fine.Vars}
    {os : List (Outcome Unit α)} (hp : (s.th i).prog = .ret (v, os)) :
    os = (exec specStep (m.part own i) (ops i)).2 ∧
    (⟨(s.th i).view s.mem, v.env, v.fresh⟩ : Machine α).store = (exec specStep (m.part own i) (ops i)).1 := by
  obtain ⟨H, m', K, P⟩ := Proof.parts h sep ops
  obtain ⟨H1, R1, g1, h1⟩ := Fine.rel_run P.rel (Proof.parts_good P) e
  have h2 := h1 i
  rw [hp] at h2
  have h3 : ((Fine.alone (A i))^[sched.count i] (H i, ((Fine.start m own ops).th i).prog)).2 = .ret (v, os) := by rw [← h2]
  have h4 := Fine.alone_run h3
  rw [← h2] at h4
  have h5 := Fine.exec_run (ops i) _ (H i) (m' i) (K i) (P.am i) (P.inv i)
  rw [show (Fine.exec ⟨fun x => if own x = i then m.env x else none, m.fresh⟩ (ops i)).run (A i) (H i) = .ok (v, os) (H1 i) from h4] at h5
  obtain ⟨f1, f2, -⟩ := h5
  obtain ⟨q1, q2, K', M'⟩ := exec_spec (ops i) (m' i) (K i) (P.inv i)
  rw [P.store i] at q1 q2
  refine ⟨by rw [f1, q1], ?_⟩
  rw [← q2]
  exact Fine.store_part ((R1.sub i).view (s.th i)) (R1.same i) f2 M'

/-- **C61** (partial) what a thread has done depends only on how many steps it has made, not on the other threads. -/
theorem c61_independent_partial {sched sched' : List (Fin n)} {s s'} (e : (Fine.start m own ops).run A sched = some s)
    (e' : (Fine.start m own ops).run A sched' = some s') {i : Fin n} (hc : sched.count i = sched'.count i) :
    (s.th i).prog = (s'.th i).prog ∧ (s.th i).log = (s'.th i).log := by
  obtain ⟨H, m', K, P⟩ := Proof.parts h sep ops
  obtain ⟨H1, R1, g1, h1⟩ := Fine.rel_run P.rel (Proof.parts_good P) e
  obtain ⟨H2, R2, g2, h2⟩ := Fine.rel_run P.rel (Proof.parts_good P) e'
  have h3 := (h1 i).trans ((congrArg (fun k => (Fine.alone (A i))^[k] _) hc).trans (h2 i).symm)
  simp only [Prod.mk.injEq] at h3
  refine ⟨h3.2, ?_⟩
  have a1 := (R1.same i).log
  have a2 := (R2.same i).log
  have : ((s.th i).view s.mem).log = ((s'.th i).view s'.mem).log := by rw [a1, a2, h3.1]
  exact this

/-- **C61** (partial) no thread waits for another: after a number of its own steps, whatever the others do, it has finished. -/
theorem c61_wait_free_partial (i : Fin n) : ∃ N, ∀ sched s, (Fine.start m own ops).run A sched = some s → N ≤ sched.count i →
    ∃ v os, (s.th i).prog = .ret (v, os) := by
  obtain ⟨H, m', K, P⟩ := Proof.parts h sep ops
  obtain ⟨N, hN⟩ := Fine.alone_ends (A i) ((Fine.start m own ops).th i).prog (H i)
  refine ⟨N, fun sched s e hc => ?_⟩
  obtain ⟨H1, R1, g1, h1⟩ := Fine.rel_run P.rel (Proof.parts_good P) e
  have h2 := h1 i
  rcases hN _ hc with ⟨⟨v, os⟩, hb⟩ | ⟨x, hb⟩
  · rw [← h2] at hb; exact ⟨v, os, hb⟩
  · rw [← h2] at hb; exact absurd hb (c61_no_failure_partial h sep e i x)

/-- **C61** (partial) no memory is lost: when all threads have finished and no variable of any thread holds anything, all memory has been
released. -/
theorem c61_no_leak_partial {sched : List (Fin n)} {s} (e : (Fine.start m own ops).run A sched = some s)
    (hd : ∀ i, ∃ v os, (s.th i).prog = .ret (v, os) ∧ ∀ x, v.env x = none) :
    (∀ a, s.mem.live a = false) ∧ ∀ w, s.mem.vec w = none := by
  obtain ⟨H, m', K, P⟩ := Proof.parts h sep ops
  obtain ⟨H1, R1, g1, h1⟩ := Fine.rel_run P.rel (Proof.parts_good P) e
  have key : ∀ i, (∀ a, (H1 i).live a = false) ∧ ∀ w, (H1 i).vec w = none := by
    intro i
    obtain ⟨v, os, hp, hv⟩ := hd i
    have h2 := h1 i
    rw [hp] at h2
    have h3 : ((Fine.alone (A i))^[sched.count i] (H i, ((Fine.start m own ops).th i).prog)).2 = .ret (v, os) := by rw [← h2]
    have h4 := Fine.alone_run h3
    rw [← h2] at h4
    have h5 := Fine.exec_run (ops i) _ (H i) (m' i) (K i) (P.am i) (P.inv i)
    rw [show (Fine.exec ⟨fun x => if own x = i then m.env x else none, m.fresh⟩ (ops i)).run (A i) (H i) = .ok (v, os) (H1 i) from h4] at h5
    obtain ⟨f1, f2, -⟩ := h5
    obtain ⟨-, -, K', M'⟩ := exec_spec (ops i) (m' i) (K i) (P.inv i)
    exact Fine.part_released f2 M' hv
  constructor
  · intro a
    cases hl : s.mem.live a with
    | false => rfl
    | true => obtain ⟨i, hi⟩ := R1.live a hl; rw [(key i).1 a] at hi; cases hi
  · intro w
    cases hl : s.mem.vec w with
    | none => rfl
    | some nw => obtain ⟨i, hi⟩ := R1.vec w nw hl; rw [(key i).2 w] at hi; cases hi

/-- **C61** (partial) a step is only ever impossible because the allocator hands out memory that is in use. -/
theorem c61_progress_partial {sched : List (Fin n)} {s} (e : (Fine.start m own ops).run A sched = some s) (i : Fin n)
    (hf : ∀ a k, (s.th i).prog = .acc a k → s.free A i a = true) : ∃ s', s.step A i = some s' := by
  obtain ⟨H, m', K, P⟩ := Proof.parts h sep ops
  obtain ⟨H1, R1, g1, h1⟩ := Fine.rel_run P.rel (Proof.parts_good P) e
  simp only [Fine.Sys.step]
  cases hp : (s.th i).prog with
  | ret b => exact ⟨s, rfl⟩
  | fail x => exact ⟨s, rfl⟩
  | acc a k =>
    have fr := hf a k hp
    dsimp only
    rw [if_pos fr]
    have gi := g1 i
    rw [hp] at gi
    have hok := Fine.free_okay fr
    have hS := (R1.sub i).view (s.th i)
    rcases gi.next with ⟨x, H2, er⟩ | ⟨H2, er⟩
    · obtain ⟨G1, eg, -⟩ := Fine.acc_part hS (R1.same i) er hok
      rw [eg]; exact ⟨_, rfl⟩
    · exact absurd er (Fine.okay_run (Fine.okay_mono hS (R1.same i) hok))

end

namespace Proof
open Fine

theorem amrel_clearLog {A : Alloc} {m m' : Machine α} (r : AMRel A m m') :
    AMRel A { m with heap := { m.heap with log := [] } } { m' with heap := { m'.heap with log := [] } } :=
  ⟨⟨r.heap.live, r.heap.onto, r.heap.inj, r.heap.prev, r.heap.next, r.heap.head, r.heap.tail, r.heap.up, r.heap.size, r.heap.data, r.heap.count,
    r.heap.borrow, r.heap.vec, r.heap.vonto, r.heap.vinj, r.heap.slots, r.heap.sep, r.heap.known, r.heap.lbnd, r.heap.vbnd, r.heap.nextAddr,
    r.heap.nextVec, rfl⟩, r.env, r.fresh⟩

theorem minv_clearLog {m : Machine α} {K : Addr → List Addr} (M : MInv m K) : MInv { m with heap := { m.heap with log := [] } } K :=
  ⟨M.inv.setLog [], SInv.setLog M.st [], M.kv, fun x hd e => ⟨(M.hnd x hd e).used, (M.hnd x hd e).root, by have := (M.hnd x hd e).kind; cases hd <;> exact this⟩, M.dist, M.all, M.fr⟩

end Proof

/-- **C61** (the part about `Sync`, complete) Threads that have shared references to the same trees and forests, parts of one block or not, and
call any of the functions that a shared reference allows, in any order of their accesses: no step is impossible, there is no data race,
no access fails, memory is not changed, and a thread that has finished has had the answers of the specification. -/
theorem c61_readers {A0 : Alloc} {ops0 : List (Op α)} {m : Machine α} {A : Fin n → Alloc} (h : Spawned A0 ops0 m A)
    {ops : Fin n → List (Op α)} (ho : ∀ i, ∀ op ∈ ops i, op.reading = true) (sched : List (Fin n)) :
    ∃ s, (Fine.share m ops).run A sched = some s ∧ ¬ s.Race ∧ (∀ i x, (s.th i).prog ≠ .fail x) ∧
      { s.mem with nextAddr := m.heap.nextAddr, nextVec := m.heap.nextVec, log := m.heap.log } = m.heap ∧
      ∀ i v os, (s.th i).prog = .ret (v, os) → os = (exec specStep { m.store with dropped := [] } (ops i)).2 ∧ (s.th i).log = [] := by
  obtain ⟨os0, e0⟩ := Proof.spawned_run h
  have r : ∀ i, AMRel (A i) m (exec step Machine.empty ops0).1 := fun i => Fine.amrel_agree e0 ⟨h.addr i, h.vec i⟩
  have r0 := Fine.amrel_agree e0 (⟨fun _ _ => rfl, fun _ _ => rfl⟩ : Fine.Agree A0 A0 m.heap)
  have hr : Reachable (exec step (Machine.empty : Machine α) ops0).1 := by
    have := Proof.execA_sim A0 ops0 _ _ (Proof.amrel_empty A0) .init
    rw [e0] at this
    exact this.2.2
  obtain ⟨K, M⟩ := Proof.reachable_minv hr
  have hx : ∀ i, Fine.FRes (A i) _ (ops i) _ ((Fine.exec ⟨m.env, m.fresh⟩ (ops i)).run (A i) { m.heap with log := [] }) := fun i =>
    Fine.exec_run (ops i) ⟨m.env, m.fresh⟩ { m.heap with log := [] } _ K (Proof.amrel_clearLog (r i)) (Proof.minv_clearLog M)
  have hg : ∀ j, Fine.Good (A j) (((Fine.share m ops).th j).view (Fine.share m ops).mem, ((Fine.share m ops).th j).prog) := by
    intro j e h' he
    have := hx j
    rw [show (Fine.exec ⟨m.env, m.fresh⟩ (ops j)).run (A j) { m.heap with log := [] } = .err e h' from he] at this
    exact this.1
  have hp : ∀ j, Fine.RO ((Fine.share m ops).th j).prog := fun j => Fine.ro_exec _ _ (ho j)
  obtain ⟨s, e1, m1, v1, l1, p1, a1⟩ := Fine.ro_sys_run hp hg sched
  refine ⟨s, e1, Fine.ro_norace p1, ?_, m1 _ _ _, ?_⟩
  · intro i x hx1
    have h2 := a1 i
    rw [hx1] at h2
    have hq : ∀ k, Fine.Full ((Fine.alone (A i))^[k] (((Fine.share m ops).th i).view (Fine.share m ops).mem, ((Fine.share m ops).th i).prog)).2 ∧
        Fine.RO ((Fine.alone (A i))^[k] (((Fine.share m ops).th i).view (Fine.share m ops).mem, ((Fine.share m ops).th i).prog)).2 ∧
        Fine.Good (A i) ((Fine.alone (A i))^[k] (((Fine.share m ops).th i).view (Fine.share m ops).mem, ((Fine.share m ops).th i).prog)) := by
      intro k
      induction k with
      | zero => exact ⟨Fine.full_exec _ _, hp i, hg i⟩
      | succ k ih =>
        rw [Function.iterate_succ_apply']
        obtain ⟨i1, i2, i3⟩ := ih
        refine ⟨?_, ?_, i3.alone⟩
        · revert i1 i2 i3
          generalize (Fine.alone (A i))^[k] (((Fine.share m ops).th i).view (Fine.share m ops).mem, ((Fine.share m ops).th i).prog) = q
          intro i1 i2 i3
          obtain ⟨hh, p⟩ := q
          cases p with
          | ret b => exact i1
          | fail e => exact i1
          | acc a k =>
            rcases Fine.Good.next i3 with ⟨y, H', er⟩ | ⟨H', er⟩
            · simp only [Fine.alone, er]; exact i1 y
            · exact absurd er (Fine.okay_run (by cases a <;> first | trivial | cases i2.1))
        · revert i2
          generalize (Fine.alone (A i))^[k] (((Fine.share m ops).th i).view (Fine.share m ops).mem, ((Fine.share m ops).th i).prog) = q
          intro i2
          exact (Fine.ro_alone i2).2
    have h3 := (hq (sched.count i)).1
    rw [← h2] at h3
    exact h3
  · intro i v os hp1
    have h2 := a1 i
    rw [hp1] at h2
    have h3 : ((Fine.alone (A i))^[sched.count i] (((Fine.share m ops).th i).view (Fine.share m ops).mem, ((Fine.share m ops).th i).prog)).2 = .ret (v, os) := by rw [← h2]
    have h4 := Fine.alone_run h3
    have h5 := hx i
    rw [show (Fine.exec ⟨m.env, m.fresh⟩ (ops i)).run (A i) { m.heap with log := [] } = .ok (v, os) _ from h4] at h5
    obtain ⟨f1, -, -⟩ := h5
    obtain ⟨q1, -, -⟩ := exec_spec (ops i) _ K (Proof.minv_clearLog M)
    refine ⟨?_, l1 i⟩
    rw [f1, q1]
    have : (Machine.store { (exec step (Machine.empty : Machine α) ops0).1 with heap := { (exec step (Machine.empty : Machine α) ops0).1.heap with log := [] } }) = { m.store with dropped := [] } := by
      refine (Abs.store_eq (Proof.minv_clearLog M) ⟨fun x => ?_, r0.fresh, rfl⟩)
      have e1 : m.view = _ := Proof.amrel_view r0 hr
      have ha := M.abs_store.vars x
      simp only [Machine.store] at ha ⊢
      rw [e1]
      cases he : (exec step (Machine.empty : Machine α) ops0).1.env x with
      | none => rw [he] at ha; exact ha
      | some hd =>
        rw [he] at ha
        obtain ⟨w, h1, h2⟩ := ha
        refine ⟨w, h1, ?_⟩
        cases hd <;> cases w <;> exact h2
    rw [this]

end Trees
