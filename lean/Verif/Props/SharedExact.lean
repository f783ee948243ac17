import Verif.Props.SharedDefects
/-
C35, C36: exactly for which handles the property holds. Every handle into a contiguous block is affected by the
defects, whatever the history: enough repetitions of `drop( k.clone() )`, or of `drop( k.downgrade() )`, make the handle `k`
itself unusable. Handles outside of blocks are not affected by any number of repetitions.
-/
namespace Trees
set_option linter.unusedSimpArgs false
set_option linter.unusedVariables false
variable {α : Type}
open Classical

/-- `n` times `drop( k.clone() );` — `f` is the first unused variable. -/
def cloneRounds (f : Var) (k : Var) : Nat → List (ROp α)
  | 0 => []
  | n+1 => .clone k :: .drop f :: cloneRounds (f + 1) k n

/-- `n` times `drop( k.downgrade() );`. -/
def weakRounds (f : Var) (k : Var) : Nat → List (ROp α)
  | 0 => []
  | n+1 => .downgrade k :: .drop f :: weakRounds (f + 1) k n

/-- What is left of the invariant while the counts of the block go wrong: `n` is the count of the block. -/
structure Wearing (m : RMachine α) (k : Var) (v i n : Nat) : Prop where
  ref : m.refs k = some (.rc (.piled v i))
  lt : k < m.fresh
  vec : ∃ nv, m.heap.vec v = some nv ∧ nv.refCnt = n ∧ i < nv.cap ∧ m.heap.count (nv.base + i) ≠ 0
  gd : ∀ g b a w, m.refs g = some (.guard b a w) → b < m.fresh

/-- The block is gone. -/
structure WornOut (m : RMachine α) (k : Var) (v i : Nat) : Prop where
  ref : m.refs k = some (.rc (.piled v i))
  vec : m.heap.vec v = none

theorem WornOut.data {m : RMachine α} {k : Var} {v i : Nat} (w : WornOut m k v i) : rstep m (.data k) = .bad := by
  simp only [rstep, RMachine.call, RMachine.onRc, w.ref, RMachine.run, withShared, borrowShared, M.bind_apply, RcRef.slot, vecNode, w.vec, Res.bind]

theorem SReachable.wearing {m : RMachine α} (hr : SReachable m) {k : Var} {v i : Nat} (hk : m.refs k = some (.rc (.piled v i))) :
    ∃ n, 0 < n ∧ Wearing m k v i n := by
  obtain ⟨G, K, T, I, B⟩ := hr.si
  obtain ⟨a, ha, nv, d, h1, h2, h3, h4⟩ := I.rcs k _ hk
  have hu := (I.tgt k a ha).2.1
  refine ⟨nv.refCnt + esum (extra G m.fresh T) nv, Nat.lt_of_lt_of_le (I.st.pos v nv h1) (Nat.le_add_right _ _), hk, I.lt ha, ⟨{ nv with refCnt := nv.refCnt + esum (extra G m.fresh T) nv }, ?_, rfl, h2, ?_⟩, ?_⟩
  · rw [I.heap]; exact bumpVec_some h1
  · rw [I.heap]
    simp only [bumpZ_count, ← h3, I.st.count1 hu]; simp
  · intro g b a w hg
    exact I.lt (I.guards g b a w hg)

theorem Wearing.unguarded {m : RMachine α} {k : Var} {v i n : Nat} (w : Wearing m k v i n) (h : Heap α) (r : Ref) (hr : ∀ b a wr, r ≠ .guard b a wr) :
    (⟨h, m.env, upd m.refs m.fresh (some r), m.fresh + 1⟩ : RMachine α).guarded m.fresh = false := by
  by_contra hc
  have hc : (⟨h, m.env, upd m.refs m.fresh (some r), m.fresh + 1⟩ : RMachine α).guarded m.fresh = true := by simpa using hc
  simp only [RMachine.guarded, List.any_eq_true, List.mem_range] at hc
  obtain ⟨g, hgl, hc⟩ := hc
  by_cases hg : g = m.fresh
  · subst hg
    simp only [upd_self] at hc
    split at hc
    · rename_i b a wr e
      exact hr b a wr (by simpa using e)
    · simp at hc
  · rw [upd_of_ne _ _ hg] at hc
    split at hc
    · rename_i b a wr e
      simp only [beq_iff_eq] at hc
      subst hc
      exact Nat.lt_irrefl _ (w.gd _ _ _ _ e)
    · simp at hc

/-- The effect of one repetition: the count of the block drops by one. -/
theorem Wearing.after {m : RMachine α} {k : Var} {v i n : Nat} (w : Wearing m k v i n) (hn : 0 < n) {nv : NodeVec} {c : Addr → Nat}
    (hv : m.heap.vec v = some nv) (hc : c (nv.base + i) ≠ 0) {r : Ref} (hr : ∀ b a wr, r ≠ .guard b a wr) {m₂ : RMachine α} {u : Unit} {h₂ : Heap α}
    (hd : decrRef v ({ m.heap with count := c } : Heap α) = .ok u h₂)
    (e : m₂ = ⟨h₂, m.env, upd (upd m.refs m.fresh (some r)) m.fresh none, m.fresh + 1⟩) :
    (n = 1 ∧ WornOut m₂ k v i) ∨ (1 < n ∧ Wearing m₂ k v i (n - 1)) := by
  subst e
  obtain ⟨nv', h1, h2, h3, h4⟩ := w.vec
  rw [hv] at h1; cases h1
  have hkf : k ≠ m.fresh := Nat.ne_of_lt w.lt
  simp only [decrRef, hv, h2, if_neg (Nat.ne_of_gt hn)] at hd
  have hrf : upd (upd m.refs m.fresh (some r)) m.fresh none k = some (.rc (.piled v i)) := by
    rw [upd_of_ne _ _ hkf, upd_of_ne _ _ hkf]; exact w.ref
  by_cases h1 : n - 1 = 0
  · rw [if_pos h1] at hd; cases hd
    exact .inl ⟨by omega, hrf, by simp⟩
  · rw [if_neg h1] at hd; cases hd
    refine .inr ⟨by omega, hrf, Nat.lt_succ_of_lt w.lt, ⟨_, upd_self _ _ _, rfl, h3, hc⟩, ?_⟩
    intro g b a wr hg
    have hgf : g ≠ m.fresh := by
      rintro rfl; simp at hg
    simp only [upd_of_ne _ _ hgf] at hg
    exact Nat.lt_succ_of_lt (w.gd g b a wr hg)

theorem decrRef_ok {v : Nat} {h : Heap α} {nv : NodeVec} (hv : h.vec v = some nv) (hn : nv.refCnt ≠ 0) : ∃ h', decrRef v h = .ok () h' := by
  simp only [decrRef, hv, if_neg hn]
  split
  · exact ⟨_, rfl⟩
  · exact ⟨_, rfl⟩

theorem Wearing.clone {m : RMachine α} {k : Var} {v i n : Nat} (w : Wearing m k v i n) (hn : 0 < n) :
    ∃ m₁ m₂, rstep m (.clone k) = .ok m₁ (.var m.fresh) ∧ rstep m₁ (.drop m.fresh) = .ok m₂ .unit ∧ m₂.fresh = m.fresh + 1 ∧
      ((n = 1 ∧ WornOut m₂ k v i) ∨ (1 < n ∧ Wearing m₂ k v i (n - 1))) := by
  obtain ⟨nv, h1, h2, h3, h4⟩ := w.vec
  have e1 : rstep m (.clone k) = .ok ⟨{ m.heap with count := upd m.heap.count (nv.base + i) (m.heap.count (nv.base + i) + 1) }, m.env,
      upd m.refs m.fresh (some (.rc (.piled v i))), m.fresh + 1⟩ (.var m.fresh) := by
    simp only [rstep, RMachine.onRc, w.ref, RMachine.run, rcClone, RcRef.slot, M.bind_apply, vecNode, h1, if_pos h3, Res.bind_ok, incrCount, if_neg h4]
    rfl
  obtain ⟨h2', e2⟩ := decrRef_ok (h := ({ m.heap with count := upd (upd m.heap.count (nv.base + i) (m.heap.count (nv.base + i) + 1)) (nv.base + i) (m.heap.count (nv.base + i)) } : Heap α))
    (v := v) (nv := nv) h1 (by omega)
  refine ⟨_, ⟨h2', m.env, upd (upd m.refs m.fresh (some (.rc (.piled v i)))) m.fresh none, m.fresh + 1⟩, e1, ?_, rfl,
    w.after hn h1 (by simpa using h4) (r := .rc (.piled v i)) (by simp) e2 rfl⟩
  have hg := w.unguarded ({ m.heap with count := upd m.heap.count (nv.base + i) (m.heap.count (nv.base + i) + 1) } : Heap α) (.rc (.piled v i)) (by simp)
  simp only [rstep, upd_self, hg, RMachine.run, dropHandle, M.fuelled, dropRc, M.bind_apply, vecNode, h1, if_pos h3, Res.bind_ok, decrCount,
    Nat.add_eq_zero_iff, Nat.add_sub_cancel, if_neg h4]
  simp [h4, e2]

theorem Wearing.weak {m : RMachine α} {k : Var} {v i n : Nat} (w : Wearing m k v i n) (hn : 0 < n) :
    ∃ m₁ m₂, rstep m (.downgrade k) = .ok m₁ (.var m.fresh) ∧ rstep m₁ (.drop m.fresh) = .ok m₂ .unit ∧ m₂.fresh = m.fresh + 1 ∧
      ((n = 1 ∧ WornOut m₂ k v i) ∨ (1 < n ∧ Wearing m₂ k v i (n - 1))) := by
  obtain ⟨nv, h1, h2, h3, h4⟩ := w.vec
  obtain ⟨h2', e2⟩ := decrRef_ok (h := ({ m.heap with count := m.heap.count } : Heap α)) (v := v) (nv := nv) h1 (by omega)
  refine ⟨⟨m.heap, m.env, upd m.refs m.fresh (some (.weak (.piled v i))), m.fresh + 1⟩, ⟨h2', m.env, upd (upd m.refs m.fresh (some (.weak (.piled v i)))) m.fresh none, m.fresh + 1⟩,
    ?_, ?_, rfl, w.after hn h1 (c := m.heap.count) h4 (r := .weak (.piled v i)) (by simp) e2 rfl⟩
  · simp only [rstep, RMachine.onRc, w.ref, RMachine.bindRef]
  · simp only [rstep, upd_self, RMachine.run, dropWeak]
    rw [show m.heap = ({ m.heap with count := m.heap.count } : Heap α) from rfl, e2]

theorem Wearing.cloneRounds {k : Var} {v i : Nat} : ∀ {n : Nat} {m : RMachine α}, Wearing m k v i n → 0 < n →
    ∃ m', rexec m (cloneRounds m.fresh k n) = some m' ∧ rstep m' (.data k) = .bad
  | 0, m, _, h => absurd h (Nat.lt_irrefl _)
  | n+1, m, w, _ => by
    obtain ⟨m1, m2, h1, h2, h3, h4⟩ := w.clone (Nat.succ_pos n)
    rcases h4 with ⟨h4, h5⟩ | ⟨h4, h5⟩
    · have : n = 0 := by omega
      subst this
      exact ⟨m2, by simp only [Trees.cloneRounds, rexec, h1, h2], h5.data⟩
    · obtain ⟨m', h6, h7⟩ := Wearing.cloneRounds (n := n) h5 (by omega)
      exact ⟨m', by simp only [Trees.cloneRounds, rexec, h1, h2, ← h3, h6], h7⟩

theorem Wearing.weakRounds {k : Var} {v i : Nat} : ∀ {n : Nat} {m : RMachine α}, Wearing m k v i n → 0 < n →
    ∃ m', rexec m (weakRounds m.fresh k n) = some m' ∧ rstep m' (.data k) = .bad
  | 0, m, _, h => absurd h (Nat.lt_irrefl _)
  | n+1, m, w, _ => by
    obtain ⟨m1, m2, h1, h2, h3, h4⟩ := w.weak (Nat.succ_pos n)
    rcases h4 with ⟨h4, h5⟩ | ⟨h4, h5⟩
    · have : n = 0 := by omega
      subst this
      exact ⟨m2, by simp only [Trees.weakRounds, rexec, h1, h2], h5.data⟩
    · obtain ⟨m', h6, h7⟩ := Wearing.weakRounds (n := n) h5 (by omega)
      exact ⟨m', by simp only [Trees.weakRounds, rexec, h1, h2, ← h3, h6], h7⟩

/-! ### Handles outside of blocks -/

theorem SReachable.unaffected {k : Var} {f : Var → ROp α} (hf : f = .clone ∨ f = .downgrade) {m : RMachine α} (hr : SReachable m) {t : RTree (Addr × α)}
    (hk : m.look k = some t) (hs : m.Scattered k) :
    ∃ m₁ m₂, rstep m (f k) = .ok m₁ (.var m.fresh) ∧ rstep m₁ (.drop m.fresh) = .ok m₂ .unit ∧ m₂.fresh = m.fresh + 1 ∧ SReachable m₂ ∧ m₂.look k = some t ∧ m₂.Scattered k ∧ m₂.refs = m.refs ∧
      (∀ j, m₂.look j = m.look j) ∧ m₂.excl.view = m.excl.view ∧ m₂.heap.log = m.heap.log := by
  obtain ⟨a, ha⟩ := scattered_ref hk hs
  have hkf : k ≠ m.fresh := by rintro rfl; rw [look_fresh hr.si] at hk; simp at hk
  have hfn : m.refs m.fresh = none := by
    obtain ⟨G, K, T, I, B⟩ := hr.si
    exact (I.fr m.fresh (Nat.le_refl _)).2
  have hng : ∀ g b c w, m.refs g = some (.guard b c w) → b ≠ m.fresh := by
    rintro g b c w hg rfl
    obtain ⟨u, hu, -⟩ := si_guard hr.si hg
    rw [look_fresh hr.si] at hu; simp at hu
  rcases hf with rfl | rfl
  · obtain ⟨m1, h1, h2, h3⟩ := si_clone hr.si hk ha
    have hr1 : SReachable m1 := .ok (op := .clone k) hr hs h1
    have hgf : m1.guarded m.fresh = false := by
      by_contra hc
      have hc : m1.guarded m.fresh = true := by simpa using hc
      simp only [RMachine.guarded, List.any_eq_true, List.mem_range] at hc
      obtain ⟨g, hgl, hc⟩ := hc
      split at hc
      · rename_i b c w hgr
        simp only [beq_iff_eq] at hc
        subst hc
        have hg : g ≠ m.fresh := by
          rintro rfl
          obtain ⟨r, hr'⟩ := look_ref h3
          rw [hgr] at hr'; simp at hr'
        rw [h2.refs g hg] at hgr
        exact hng _ _ _ _ hgr rfl
      · simp at hc
    obtain ⟨m2, e, r2, q1, q2, q3, q4⟩ := c34_drop hr1 h3 hgf
    have hrel : t.released (m1.heldElse m.fresh) = [] := by
      have : m1.heldElse m.fresh t.data.1 = true := by
        simp only [RMachine.heldElse, decide_eq_true_eq]
        exact ⟨k, hkf, look_node (by rw [h2.looks k hkf]; exact hk)⟩
      cases t with
      | node y ts => simp only [RTree.released]; exact if_pos this
    have q5 : m2.excl.store = m1.excl.store := by
      rw [q4, hrel]; simp [Store.drop]
    refine ⟨m1, m2, h1, e, ?_, r2, ?_, ?_, ?_, ?_, ?_, ?_⟩
    · have e' := e
      simp only [rstep] at e'
      obtain ⟨r, hr'⟩ := look_ref h3
      simp only [hr', hgf, RMachine.run] at e'
      simp only [Bool.false_eq_true, if_false] at e'
      split at e' <;> simp at e'
      rw [← e', h2.fresh]
    · rw [q2 k hkf, h2.looks k hkf]; exact hk
    · intro v i
      rw [q1, upd_of_ne _ _ hkf, h2.refs k hkf, ha]; simp
    · rw [q1]; funext j
      by_cases hj : j = m.fresh
      · subst hj; simp [hfn]
      · rw [upd_of_ne _ _ hj, h2.refs j hj]
    · intro j
      by_cases hj : j = m.fresh
      · subst hj; rw [q3, look_fresh hr.si]
      · rw [q2 j hj, h2.looks j hj]
    · have : m2.excl.store.vars = m1.excl.store.vars := by rw [q5]
      exact this.trans h2.vars
    · have : m2.excl.store.dropped = m1.excl.store.dropped := by rw [q5]
      exact this.trans h2.log
  · obtain ⟨m1, h1, h2, h3⟩ := si_downgrade hr.si hk ha
    have hr1 : SReachable m1 := .ok (op := .downgrade k) hr hs h1
    obtain ⟨m2, e, r2, q1, q2, q3⟩ := c36_drop_weak_partial hr1 h3
    refine ⟨m1, m2, h1, e, ?_, r2, ?_, ?_, ?_, ?_, ?_, ?_⟩
    · have e' := e
      simp only [rstep, h3, RMachine.run, dropWeak] at e'
      simp [pure, M.pure] at e'
      rw [← e', h2.fresh]
    · rw [q2 k, h2.looks k hkf]; exact hk
    · intro v i
      rw [q1, upd_of_ne _ _ hkf, h2.refs k hkf, ha]; simp
    · rw [q1]; funext j
      by_cases hj : j = m.fresh
      · subst hj; simp [hfn]
      · rw [upd_of_ne _ _ hj, h2.refs j hj]
    · intro j
      by_cases hj : j = m.fresh
      · subst hj
        rw [q2, look_fresh hr.si]
        simp only [RMachine.look, h3]
      · rw [q2 j, h2.looks j hj]
    · have : m2.excl.store.vars = m1.excl.store.vars := by rw [q3]
      exact this.trans h2.vars
    · have : m2.excl.store.dropped = m1.excl.store.dropped := by rw [q3]
      exact this.trans h2.log

theorem SReachable.cloneRounds {k : Var} {t : RTree (Addr × α)} : ∀ (n : Nat) {m : RMachine α}, SReachable m → m.look k = some t → m.Scattered k →
    ∃ m', rexec m (cloneRounds m.fresh k n) = some m' ∧ SReachable m' ∧ m'.refs = m.refs ∧ (∀ j, m'.look j = m.look j) ∧ m'.excl.view = m.excl.view ∧ m'.heap.log = m.heap.log
  | 0, m, hr, hk, hs => ⟨m, rfl, hr, rfl, fun _ => rfl, rfl, rfl⟩
  | n+1, m, hr, hk, hs => by
    obtain ⟨m1, m2, h1, h2, h3, h4, h5, h6, hR, h7, h8, h9⟩ := hr.unaffected (.inl rfl) hk hs
    obtain ⟨m', g1, g2, gR, g3, g4, g5⟩ := SReachable.cloneRounds n h4 h5 h6
    exact ⟨m', by simp only [Trees.cloneRounds, rexec, h1, h2, ← h3, g1], g2, gR.trans hR, fun j => (g3 j).trans (h7 j), g4.trans h8, g5.trans h9⟩

theorem SReachable.weakRounds {k : Var} {t : RTree (Addr × α)} : ∀ (n : Nat) {m : RMachine α}, SReachable m → m.look k = some t → m.Scattered k →
    ∃ m', rexec m (weakRounds m.fresh k n) = some m' ∧ SReachable m' ∧ m'.refs = m.refs ∧ (∀ j, m'.look j = m.look j) ∧ m'.excl.view = m.excl.view ∧ m'.heap.log = m.heap.log
  | 0, m, hr, hk, hs => ⟨m, rfl, hr, rfl, fun _ => rfl, rfl, rfl⟩
  | n+1, m, hr, hk, hs => by
    obtain ⟨m1, m2, h1, h2, h3, h4, h5, h6, hR, h7, h8, h9⟩ := hr.unaffected (.inr rfl) hk hs
    obtain ⟨m', g1, g2, gR, g3, g4, g5⟩ := SReachable.weakRounds n h4 h5 h6
    exact ⟨m', by simp only [Trees.weakRounds, rexec, h1, h2, ← h3, g1], g2, gR.trans hR, fun j => (g3 j).trans (h7 j), g4.trans h8, g5.trans h9⟩

/-! ### The theorems -/

/-- **C35** fails for every handle into a contiguous block, in every state: some number of repetitions of `drop( k.clone() )`, all of
which return normally, makes the use of `k` undefined behaviour. -/
theorem c35_refuted_every {m : RMachine α} (hr : SReachable m) {k : Var} {t : RTree (Addr × α)} (hk : m.look k = some t) (hs : ¬ m.Scattered k) :
    ∃ n m', rexec m (cloneRounds m.fresh k n) = some m' ∧ rstep m' (.data k) = .bad := by
  simp only [RMachine.Scattered, not_forall, not_not] at hs
  obtain ⟨v, i, hs⟩ := hs
  obtain ⟨n, hn, w⟩ := hr.wearing hs
  exact ⟨n, w.cloneRounds hn⟩

/-- **C36** fails for every handle into a contiguous block in the same way, with `drop( k.downgrade() )`. -/
theorem c36_refuted_every {m : RMachine α} (hr : SReachable m) {k : Var} {t : RTree (Addr × α)} (hk : m.look k = some t) (hs : ¬ m.Scattered k) :
    ∃ n m', rexec m (weakRounds m.fresh k n) = some m' ∧ rstep m' (.data k) = .bad := by
  simp only [RMachine.Scattered, not_forall, not_not] at hs
  obtain ⟨v, i, hs⟩ := hs
  obtain ⟨n, hn, w⟩ := hr.wearing hs
  exact ⟨n, w.weakRounds hn⟩

/-- **C35**, exactly: any number of repetitions of `drop( k.clone() )` returns normally and leaves what every handle shows, all
exclusive values and the log of dropped items as they were, if and only if `k` is not a handle into a contiguous block. -/
theorem c35_exact_partial {m : RMachine α} (hr : SReachable m) {k : Var} {t : RTree (Addr × α)} (hk : m.look k = some t) (hg : ¬ m.Guarded t.data.1 true) :
    (∀ n, ∃ m', rexec m (cloneRounds m.fresh k n) = some m' ∧ (∃ m'' o, rstep m' (.data k) = .ok m'' o) ∧ (∀ j, m'.look j = m.look j) ∧
      m'.excl.view = m.excl.view ∧ m'.heap.log = m.heap.log) ↔ m.Scattered k := by
  constructor
  · intro h
    by_contra hs
    obtain ⟨n, m', h1, h2⟩ := c35_refuted_every hr hk hs
    obtain ⟨m'', h3, ⟨m3, o, h4⟩, -⟩ := h n
    rw [h1] at h3; cases h3
    rw [h2] at h4; simp at h4
  · intro hs n
    obtain ⟨m', h1, h2, hR, h3, h4, h5⟩ := hr.cloneRounds n hk hs
    exact ⟨m', h1, ⟨_, _, si_data h2.si ((h3 k).trans hk) (by simpa only [RMachine.Guarded, hR] using hg)⟩, h3, h4, h5⟩

/-- **C36**, exactly: any number of repetitions of `drop( k.downgrade() )` returns normally and changes nothing, if and only if `k` is
not a handle into a contiguous block. -/
theorem c36_exact_partial {m : RMachine α} (hr : SReachable m) {k : Var} {t : RTree (Addr × α)} (hk : m.look k = some t) (hg : ¬ m.Guarded t.data.1 true) :
    (∀ n, ∃ m', rexec m (weakRounds m.fresh k n) = some m' ∧ (∃ m'' o, rstep m' (.data k) = .ok m'' o) ∧ (∀ j, m'.look j = m.look j) ∧
      m'.excl.view = m.excl.view ∧ m'.heap.log = m.heap.log) ↔ m.Scattered k := by
  constructor
  · intro h
    by_contra hs
    obtain ⟨n, m', h1, h2⟩ := c36_refuted_every hr hk hs
    obtain ⟨m'', h3, ⟨m3, o, h4⟩, -⟩ := h n
    rw [h1] at h3; cases h3
    rw [h2] at h4; simp at h4
  · intro hs n
    obtain ⟨m', h1, h2, hR, h3, h4, h5⟩ := hr.weakRounds n hk hs
    exact ⟨m', h1, ⟨_, _, si_data h2.si ((h3 k).trans hk) (by simpa only [RMachine.Guarded, hR] using hg)⟩, h3, h4, h5⟩

/-! ### C44 -/

theorem RInv.excl_holds {m : RMachine α} {G : Heap α} {K : Addr → List Addr} {T : Var → Option Addr} (I : RInv m G K T) {a : Addr} (h : Excl m.env K a) :
    ∃ x, m.excl.Holds x a := by
  obtain ⟨x, hd, h1, h2⟩ := h
  obtain ⟨p, hp⟩ := Proof.reach_resolve h2
  have hu : m.heap.Used hd.addr := I.used'.mpr (I.hnd x hd h1).used
  exact ⟨x, p, by
    have h1' : m.excl.env x = some hd := h1
    have h2' := locate_ok I.inv' hu (p := p)
    have h2'' : locate hd.addr p m.excl.heap = .ok (resolve K hd.addr p) m.heap := h2'
    simp [Machine.nodeAt, h1', h2'', hp]⟩

/-- **C44** fails in every state in which the node that the iterator stands before is gone: `next` is undefined behaviour, or — if the
node was in a contiguous block of which other nodes are left — a panic. -/
theorem c44_refuted_every {m : RMachine α} (hr : SReachable m) {i : Var} {c : Addr} {cs : List Addr} (hi : m.IterAt i (c :: cs)) (hc : ¬ m.Shown c)
    (hx : ∀ x, ¬ m.excl.Holds x c) :
    rstep m (.iterNext i) = .bad ∨ (∃ v nv, m.heap.vec v = some nv ∧ nv.Has c) ∧ ∃ m', rstep m (.iterNext i) = .panic m' := by
  obtain ⟨G, K, T, I, B⟩ := hr.si
  obtain ⟨it, h1, h2, h3⟩ := hi
  replace h3 := h3 (by simp)
  obtain ⟨cu, n⟩ := it
  simp only [List.head?_cons, List.length_cons] at h2 h3
  subst h2 h3
  have hu : ¬ G.Used c := by
    intro hu
    refine hc (I.shown.mpr ⟨hu, fun h => ?_⟩)
    obtain ⟨x, hh⟩ := I.excl_holds h
    exact hx x hh
  by_cases hl : m.heap.live c = true
  · right
    have hl' : G.live c = true := by rw [I.heap] at hl; exact hl
    have hd : (m.heap.data c).isNone = true := by
      rw [← Bool.not_eq_false]
      exact fun e => hu (I.used'.mp ⟨hl, e⟩)
    constructor
    · rcases I.st.tight c hl' with h | ⟨v, nv, h4, h5⟩
      · exact absurd h hu
      · exact ⟨v, { nv with refCnt := nv.refCnt + esum (extra G m.fresh T) nv }, by rw [I.heap]; exact bumpVec_some h4, h5⟩
    · have hd' : m.heap.data c = .none := by
        cases h : m.heap.data c <;> simp [h, Data.isNone] at hd ⊢
      simp [rstep, h1, RMachine.run, iterRcNext, RawIter.next, uncountedNext, getNext, rd, M.bind_apply, hl, nodeRc, getData, hd', Res.bind_ok, Res.bind, M.throw, pure, M.pure]
  · left
    simp [rstep, h1, RMachine.run, iterRcNext, RawIter.next, uncountedNext, getNext, rd, M.bind_apply, hl, Res.bind]

/-- **C44**, exactly: for an iterator that stands before node `c` of a tree that has not been made exclusive (by the `unsafe` function
`into_tree`), `next` returns normally if and only if some handle shows `c`. -/
theorem c44_exact_partial {m : RMachine α} (hr : SReachable m) {i : Var} {c : Addr} {cs : List Addr} (hi : m.IterAt i (c :: cs)) (hx : ∀ x, ¬ m.excl.Holds x c) :
    (∃ m' o, rstep m (.iterNext i) = .ok m' o) ↔ m.Shown c := by
  constructor
  · rintro ⟨m', o, h⟩
    by_contra hc
    rcases c44_refuted_every hr hi hc hx with e | ⟨-, m'', e⟩
    · rw [e] at h; simp at h
    · rw [e] at h; simp at h
  · intro hc
    obtain ⟨m', t, h, -⟩ := c44_next_partial hr hi hc
    exact ⟨m', _, h⟩

/-! ### C43 -/

/-- **C43**, exactly: a reference to node `a` (obtained at any time before, for instance before the call of `detach`) gives an item
only if some variable holds the node; otherwise the access is undefined behaviour or, in a block that is still in use, a panic. -/
theorem c43_exact_partial {m : Machine α} (hr : Reachable m) {a : Addr} {d : α} {h : Heap α} (hd : dataRef a m.heap = .ok d h) : ∃ x, m.Holds x a := by
  obtain ⟨K, M⟩ := Proof.reachable_minv hr
  refine Proof.used_holds M ?_
  simp only [dataRef, getData, rd, Trees.M.bind_apply] at hd
  by_cases hl : m.heap.live a = true
  · refine ⟨hl, ?_⟩
    simp only [hl, if_true, Res.bind_ok] at hd
    cases h : m.heap.data a <;> simp [h, Data.isNone, Data.val?, Trees.M.throw] at hd ⊢
  · simp [hl, Res.bind] at hd

/-- **C43** fails for every node that can be detached, in every state: after `let t = node.as_mut().detach(); drop( t );` the reference
`node`, which the borrow checker still accepts, does not give access to the item any more. -/
theorem c43_refuted_every {m : Machine α} (hr : Reachable m) {x : Var} {q : Path} {v : Val α} {s : RTree α} {l r : List (RTree α)}
    (hx : m.view x = some v) (hv : v.isIter = false) (hp : kidsAt v.kids q = some (l ++ s :: r)) :
    ∃ a m' m'', m.nodeAt x (q ++ [l.length]) = some a ∧ dataRef a m.heap = .ok s.data m.heap ∧ step m (.detach x (.child q l.length)) = .ok m' (.var m.fresh) ∧
      step m' (.drop m.fresh) = .ok m'' .unit ∧ ∀ d h, dataRef a m''.heap ≠ .ok d h := by
  obtain ⟨a, m', h1, h2, h3, h4, h5⟩ := c43_detach_partial hr hx hv hp
  have hu := c43_use_child_partial hr hx hp (i := l.length) (s := s) (by simp) h1
  obtain ⟨K, M⟩ := Proof.reachable_minv h3
  have hA := M.abs_store.vars m.fresh
  simp only [Machine.nodeAt] at h4
  cases he : m'.env m.fresh with
  | none => simp [he] at h4
  | some hd =>
    have ho := M.hnd _ hd he
    have e4 := locate_ok M.inv ho.used (p := [])
    simp only [he, e4, resolve, Option.some.injEq] at h4
    rw [he] at hA
    obtain ⟨w, g1, g2⟩ := hA
    have g1' : m'.view m.fresh = some w := g1
    rw [h5] at g1'; cases g1'
    cases hd <;> simp only [HDen] at g2
    rename_i b
    simp only [Handle.addr] at h4; subst h4
    have hd' : HDen m'.heap K (.tree b) (.tree s) := g2
    obtain ⟨h', K', e, D⟩ := hd'.dropped M.inv M.st ho rfl
    refine ⟨b, m', ⟨h', m'.setEnv m.fresh none, m'.fresh⟩, h1, hu, h2, ?_, ?_⟩
    · have e' : dropRoot b m'.heap = .ok () h' := e
      simp only [step, he, Machine.run, Handle.addr, e', Machine.ret]
    · intro d h hh
      have hn : ¬ h'.Used b := fun hb => ((D.sh.used b).mp hb).2 (.refl _)
      simp only [dataRef, getData, rd, Trees.M.bind_apply] at hh
      by_cases hl : h'.live b = true
      · simp only [hl, if_true, Res.bind_ok] at hh
        have : (h'.data b).isNone = true := by
          rw [← Bool.not_eq_false]; exact fun e => hn ⟨hl, e⟩
        cases h : h'.data b <;> simp [h, Data.isNone, Data.val?, Trees.M.throw] at this hh
      · simp [hl, Res.bind] at hh

/-! ### Cases -/

/-- A contiguous tree `1( 2 3 )` with handles to the root and to the first child: the block has a count of four. -/
def spiled : RMachine Nat := sAfter [.excl (.treeNew 1), .excl (.treeNew 2), .excl (.treeNew 3), .excl (.pushBack 0 [] 1), .excl (.pushBack 0 [] 2),
  .excl (.mapBfs 0 .root (fun _ => id)), .fromTree 3, .front 4]
theorem spiled_reach : SReachable spiled := sAfter_reach _
theorem spiled_look5 : spiled.look 5 = some (.node (4, 2) []) := RMachine.look_of_shows (by decide +kernel)

/-- A test of the negation of `Scattered`. -/
theorem RMachine.piled_of_boxed {m : RMachine Nat} {k : Var} (h : m.boxed k = false) : ¬ m.Scattered k := by
  simp only [RMachine.boxed] at h
  split at h
  · rename_i v i e; exact fun hs => hs v i e
  · simp at h

example : ∃ n m', rexec spiled (cloneRounds spiled.fresh 5 n) = some m' ∧ rstep m' (.data 5) = .bad :=
  c35_refuted_every spiled_reach spiled_look5 (RMachine.piled_of_boxed (by decide +kernel))
example : ∃ n m', rexec spiled (weakRounds spiled.fresh 5 n) = some m' ∧ rstep m' (.data 5) = .bad :=
  c36_refuted_every spiled_reach spiled_look5 (RMachine.piled_of_boxed (by decide +kernel))

theorem sdemo_unguarded5 : ¬ sdemo.Guarded 1 true := sdemo_free 1 true
example : ∀ n, ∃ m', rexec sdemo (cloneRounds 10 5 n) = some m' ∧ m'.look 6 = sdemo.look 6 := by
  have := (c35_exact_partial sdemo_reach sdemo_look5 sdemo_unguarded5).mpr (RMachine.scattered_of_boxed (by decide +kernel))
  rw [sdemo_fresh] at this
  intro n
  obtain ⟨m', h1, -, h2, -⟩ := this n
  exact ⟨m', h1, h2 6⟩

/-- An iterator over the children of a node `7( 8 )` whose last handle is gone: there are no handles and no exclusive values left. -/
def sdangling : RMachine Nat := sAfter [.excl (.treeNew 7), .excl (.treeNew 8), .excl (.pushBack 0 [] 1), .fromTree 0, .iterRc 2, .drop 2]
theorem sdangling_reach : SReachable sdangling := sAfter_reach _

/-- Test for an iterator that stands before one node. -/
def RMachine.iterOne (m : RMachine Nat) (i : Var) (c : Addr) : Bool := match m.refs i with
  | some (.iter it) => it.len == 1 && it.curr == some c
  | _ => false
theorem RMachine.iterAt_of_one {m : RMachine Nat} {i : Var} {c : Addr} (h : m.iterOne i c = true) : m.IterAt i [c] := by
  simp only [RMachine.iterOne] at h
  split at h
  · rename_i it e
    simp only [Bool.and_eq_true, beq_iff_eq] at h
    exact ⟨it, e, h.1, fun _ => h.2⟩
  · simp at h

/-- Test: no exclusive values. -/
def RMachine.noExcl (m : RMachine Nat) : Bool := (List.range m.fresh).all fun x => (m.env x).isNone
theorem RMachine.none_of_noExcl {m : RMachine Nat} (hr : SReachable m) (h : m.noExcl = true) (x : Var) (c : Addr) : ¬ m.excl.Holds x c := by
  have : m.env x = none := by
    by_cases hx : x < m.fresh
    · have := List.all_eq_true.mp h x (List.mem_range.mpr hx)
      simpa using this
    · obtain ⟨G, K, T, I, B⟩ := hr.si
      exact (I.fr x (Nat.le_of_not_lt hx)).1
  rintro ⟨p, hp⟩
  have h' : m.excl.env x = none := this
  simp [Machine.nodeAt, h'] at hp

theorem sdangling_hidden (c : Addr) : ¬ sdangling.Shown c := by
  rintro ⟨j, t, h, -⟩
  have h1 := RMachine.mem_handles sdangling_reach h
  have h2 : sdangling.handles = [] := by decide +kernel
  rw [h2] at h1; simp at h1

example : ¬ ∃ m' o, rstep sdangling (.iterNext 3) = .ok m' o := by
  rw [c44_exact_partial sdangling_reach (RMachine.iterAt_of_one (i := 3) (c := 1) (by decide +kernel)) (fun x => RMachine.none_of_noExcl sdangling_reach (by decide +kernel) x 1)]
  exact sdangling_hidden 1

example : ∃ a m' m'', demo.nodeAt 0 [0] = some a ∧ step demo (.detach 0 (.child [] 0)) = .ok m' (.var demo.fresh) ∧
    step m' (.drop demo.fresh) = .ok m'' .unit ∧ ∀ d h, dataRef a m''.heap ≠ .ok d h := by
  obtain ⟨a, m', m'', h1, -, h2, h3, h4⟩ := c43_refuted_every demo_reachable demo_view0 rfl (q := []) (l := []) (s := .node 1 []) (r := [.node 2 []]) rfl
  exact ⟨a, m', m'', h1, h2, h3, h4⟩
end Trees
