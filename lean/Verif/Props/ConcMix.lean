import Verif.Proof.ConcStart
/-
C61: threads with values of their own that also have shared references to common values.
-/
namespace Trees
set_option linter.unusedSimpArgs false
set_option linter.unusedVariables false
variable {α β γ : Type} {n : Nat}

section
variable {A0 : Alloc} {ops0 : List (Op α)} {m : Machine α} {A : Fin n → Alloc} (h : Spawned A0 ops0 m A) {own : Var → Fin (n + 1)}
  (sep : m.Separate own) {ops : Fin n → List (Op α)} (hp : ∀ i, Fine.Polite m own (ops i))
include h sep hp

/-- **C61** (partial: values of different owners share no block) Each thread works on its own values and, through shared references, reads
and copies the common ones, all at the same time: there is never a data race. -/
theorem c61_mixed_no_race_partial {sched : List (Fin n)} {s} (e : (Fine.mixed m own ops).run A sched = some s) : ¬ s.Race := by
  obtain ⟨S, Q, V, m', K, mS, KS, P⟩ := Proof.mparts h sep hp
  obtain ⟨Q1, V1, R1, g1, nw1, -⟩ := Fine.mrel_run P.rel (Proof.mparts_good P) (fun i => (P.ne i).1) e
  exact Fine.mrel_norace R1 g1 nw1

/-- **C61** (partial) no thread ever accesses memory that is not a live node or block. -/
theorem c61_mixed_no_failure_partial {sched : List (Fin n)} {s} (e : (Fine.mixed m own ops).run A sched = some s) (i : Fin n) (x : Err) :
    (s.th i).prog ≠ .fail x := by
  obtain ⟨S, Q, V, m', K, mS, KS, P⟩ := Proof.mparts h sep hp
  intro hx
  have := Proof.mfull_run P.rel (Proof.mparts_good P) (fun i => (P.ne i).1) (fun j => Fine.full_exec _ _) e i
  rw [hx] at this
  exact this

/-- **C61** (partial) a thread that has finished has had exactly the results that the specification gives for its program run alone on
what it can see, its own values and the common ones. -/
theorem c61_mixed_results_partial {sched : List (Fin n)} {s} (e : (Fine.mixed m own ops).run A sched = some s) {i : Fin n} {v : Fine.Vars}
    {os : List (Outcome Unit α)} (hr : (s.th i).prog = .ret (v, os)) :
    os = (exec specStep (m.seen own i) (ops i)).2 ∧
    (⟨(s.th i).view s.mem, v.env, v.fresh⟩ : Machine α).store = (exec specStep (m.seen own i) (ops i)).1 := by
  obtain ⟨S, Q, V, m', K, mS, KS, P⟩ := Proof.mparts h sep hp
  obtain ⟨Q1, V1, R1, g1, nw1, h1⟩ := Fine.mrel_run P.rel (Proof.mparts_good P) (fun i => (P.ne i).1) e
  have h2 := h1 i
  rw [hr] at h2
  have h3 : ((Fine.alone (A i))^[sched.count i] (V i, ((Fine.mixed m own ops).th i).prog)).2 = .ret (v, os) := by rw [← h2]
  have h4 := Fine.alone_run h3
  rw [← h2] at h4
  have h5 := Fine.exec_run (ops i) _ (V i) (m' i) (K i) (P.am i) (P.inv i)
  rw [show (Fine.exec ⟨fun x => if own x = 0 ∨ own x = i.succ then m.env x else none, m.fresh⟩ (ops i)).run (A i) (V i) = .ok (v, os) (V1 i) from h4] at h5
  obtain ⟨f1, f2, -⟩ := h5
  obtain ⟨q1, q2, K', M'⟩ := exec_spec (ops i) (m' i) (K i) (P.inv i)
  rw [P.store i] at q1 q2
  refine ⟨by rw [f1, q1], ?_⟩
  rw [← q2]
  exact Fine.store_part ((R1.vsub i).view (s.th i)) (R1.same i) f2 M'

/-- **C61** (partial) what a thread has done depends only on how many steps it has made, not on the other threads. -/
theorem c61_mixed_independent_partial {sched sched' : List (Fin n)} {s s'} (e : (Fine.mixed m own ops).run A sched = some s)
    (e' : (Fine.mixed m own ops).run A sched' = some s') {i : Fin n} (hc : sched.count i = sched'.count i) :
    (s.th i).prog = (s'.th i).prog ∧ (s.th i).log = (s'.th i).log := by
  obtain ⟨S, Q, V, m', K, mS, KS, P⟩ := Proof.mparts h sep hp
  obtain ⟨Q1, V1, R1, g1, nw1, h1⟩ := Fine.mrel_run P.rel (Proof.mparts_good P) (fun i => (P.ne i).1) e
  obtain ⟨Q2, V2, R2, g2, nw2, h2⟩ := Fine.mrel_run P.rel (Proof.mparts_good P) (fun i => (P.ne i).1) e'
  have h3 := (h1 i).trans ((congrArg (fun k => (Fine.alone (A i))^[k] _) hc).trans (h2 i).symm)
  simp only [Prod.mk.injEq] at h3
  refine ⟨h3.2, ?_⟩
  have a1 := (R1.same i).log
  have a2 := (R2.same i).log
  have : ((s.th i).view s.mem).log = ((s'.th i).view s'.mem).log := by rw [a1, a2, h3.1]
  exact this

/-- **C61** (partial) no thread waits for another. -/
theorem c61_mixed_wait_free_partial (i : Fin n) : ∃ N, ∀ sched s, (Fine.mixed m own ops).run A sched = some s → N ≤ sched.count i →
    ∃ v os, (s.th i).prog = .ret (v, os) := by
  obtain ⟨S, Q, V, m', K, mS, KS, P⟩ := Proof.mparts h sep hp
  obtain ⟨N, hN⟩ := Fine.alone_ends (A i) ((Fine.mixed m own ops).th i).prog (V i)
  refine ⟨N, fun sched s e hc => ?_⟩
  obtain ⟨Q1, V1, R1, g1, nw1, h1⟩ := Fine.mrel_run P.rel (Proof.mparts_good P) (fun i => (P.ne i).1) e
  have h2 := h1 i
  rcases hN _ hc with ⟨⟨v, os⟩, hb⟩ | ⟨x, hb⟩
  · rw [← h2] at hb; exact ⟨v, os, hb⟩
  · rw [← h2] at hb; exact absurd hb (c61_mixed_no_failure_partial h sep hp e i x)

/-- **C61** (partial) at every moment, whatever the threads are doing, the common values are what they were. -/
theorem c61_mixed_shared_partial {sched : List (Fin n)} {s} (e : (Fine.mixed m own ops).run A sched = some s) :
    (⟨{ s.mem with nextAddr := m.heap.nextAddr, nextVec := m.heap.nextVec, log := [] }, fun x => if own x = 0 then m.env x else none, m.fresh⟩ : Machine α).store
      = m.part own 0 := by
  obtain ⟨S, Q, V, m', K, mS, KS, P⟩ := Proof.mparts h sep hp
  obtain ⟨A1, r⟩ := P.shared
  rw [← P.sstore]
  obtain ⟨c1, c2, c3⟩ := P.scount
  refine Fine.store_part (v := ⟨_, _⟩) ?_ ⟨c1.symm, c2.symm, c3.symm⟩ r P.sinv
  exact (Proof.mshared P e).view ⟨m.heap.nextAddr, m.heap.nextVec, [], (.ret () : Fine.Prog α Unit)⟩

/-- **C61** (partial) no memory is lost: when all threads have finished and hold nothing of their own, what is left are nodes of the common
values and blocks in which there are such nodes. -/
theorem c61_mixed_no_leak_partial {sched : List (Fin n)} {s} (e : (Fine.mixed m own ops).run A sched = some s)
    (hd : ∀ i, ∃ v os, (s.th i).prog = .ret (v, os) ∧ ∀ x, ¬ (own x = 0 ∧ x < m.fresh) → v.env x = none) :
    (∀ a, s.mem.live a = true → (∃ x p, own x = 0 ∧ m.nodeAt x p = some a) ∨
      ∃ v nv, s.mem.vec v = some nv ∧ nv.base ≤ a ∧ a < nv.base + nv.cap) ∧
    ∀ v nv, s.mem.vec v = some nv → ∃ x p, own x = 0 ∧ m.blockAt x p = some v := by
  obtain ⟨S, Q, V, m', K, mS, KS, P⟩ := Proof.mparts h sep hp
  obtain ⟨Q1, V1, R1, g1, nw1, h1⟩ := Fine.mrel_run P.rel (Proof.mparts_good P) (fun i => (P.ne i).1) e
  have key : ∀ i, (∀ a, (Q1 i).live a = false) ∧ ∀ w, (Q1 i).vec w = none := by
    intro i
    obtain ⟨v, os, hr, hv⟩ := hd i
    have h2 := h1 i
    rw [hr] at h2
    have h3 : ((Fine.alone (A i))^[sched.count i] (V i, ((Fine.mixed m own ops).th i).prog)).2 = .ret (v, os) := by rw [← h2]
    have h4 := Fine.alone_run h3
    rw [← h2] at h4
    obtain ⟨v0, Q', mQ, KQ, o, r, M, st⟩ := (P.ne i).2 _ _ h4
    obtain ⟨l0, b0⟩ := Fine.part_released r M fun x => by
      by_cases hx : own x = 0 ∧ x < m.fresh
      · exact o.gone x hx
      · rw [← o.mine x hx]; exact hv x hx
    constructor
    · intro a
      cases hl : (Q1 i).live a with
      | false => rfl
      | true =>
        rcases st.cov a ((R1.qsub i).live a hl) with h | h
        · rw [l0 a] at h; cases h
        · exact ((R1.qs i).here a (.inl hl) (.inl h)).elim
    · intro w
      cases hl : (Q1 i).vec w with
      | none => rfl
      | some nw =>
        rcases st.vcov w nw ((R1.qsub i).vec w nw hl) with h | h
        · rw [b0 w] at h; cases h
        · rw [(R1.qs i).vec w nw hl] at h; cases h
  have hv : ∀ v nv, s.mem.vec v = some nv → S.vec v = some nv := by
    intro v nv hv
    rcases R1.vec v nv hv with h | ⟨i, h⟩
    · exact h
    · rw [(key i).2 v] at h; cases h
  constructor
  · intro a ha
    rcases R1.live a ha with h | ⟨i, h⟩
    · rcases P.snode a h with h | ⟨v, nv, x, p, h1, h2, h3, -, -⟩
      · exact .inl h
      · exact .inr ⟨v, nv, (Proof.mshared P e).vec v nv h1, h2, h3⟩
    · rw [(key i).1 a] at h; cases h
  · intro v nv h; exact P.sblock v nv (hv v nv h)

/-- **C61** (partial) a step is only ever impossible because the allocator hands out memory that is in use. -/
theorem c61_mixed_progress_partial {sched : List (Fin n)} {s} (e : (Fine.mixed m own ops).run A sched = some s) (i : Fin n)
    (hf : ∀ a k, (s.th i).prog = .acc a k → s.free A i a = true) : ∃ s', s.step A i = some s' := by
  obtain ⟨S, Q, V, m', K, mS, KS, P⟩ := Proof.mparts h sep hp
  obtain ⟨Q1, V1, R1, g1, nw1, h1⟩ := Fine.mrel_run P.rel (Proof.mparts_good P) (fun i => (P.ne i).1) e
  simp only [Fine.Sys.step]
  cases hp : (s.th i).prog with
  | ret b => exact ⟨s, rfl⟩
  | fail x => exact ⟨s, rfl⟩
  | acc a k =>
    have fr := hf a k hp
    dsimp only
    rw [if_pos fr]
    have gi := g1 i
    rw [hp] at gi
    have hok := Fine.free_okay fr
    have hS := (R1.vsub i).view (s.th i)
    rcases gi.next with ⟨x, H2, er⟩ | ⟨H2, er⟩
    · obtain ⟨G1, eg, -⟩ := Fine.acc_part hS (R1.same i) er hok
      rw [eg]; exact ⟨_, rfl⟩
    · exact absurd er (Fine.okay_run (Fine.okay_mono hS (R1.same i) hok))

end
end Trees
