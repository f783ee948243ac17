import Verif.Proof.SharedSim
/-
Steps that keep the correspondence of machine and specification.
-/
namespace Trees
set_option linter.unusedSimpArgs false
set_option linter.unusedVariables false
variable {α : Type}
open RTree

/-- A step of the machine. -/
def Steps (m : RMachine α) (op : ROp α) (m' : RMachine α) : Prop := (∃ o, rstep m op = .ok m' o) ∨ rstep m op = .panic m'

theorem Steps.reach {m m' : RMachine α} {op : ROp α} (hr : SReachable m) (hs : Safe m op) (h : Steps m op m') : SReachable m' := by
  rcases h with ⟨o, h⟩ | h
  · exact .ok hr hs h
  · exact .panic hr hs h

section
variable {φ φ' : Nat → Addr} {m m' : RMachine α} {s s' : SStore α} {op : ROp α}

/-- The general step. -/
theorem SSim.step (S : SSim φ m s) (hsafe : Safe m op) (hst : Steps m op m') (hx : s'.excl = m'.excl.store) (hn : s.next ≤ s'.next)
    (hφ : ∀ i, i < s.next → φ' i = φ i) (hnd : ((idsL s'.roots).map φ').Nodup) (hold : ∀ i ∈ idsL s'.roots, i < s'.next)
    (hsub : (∀ i ∈ idsL s'.roots, i ∈ idsL s.roots) ∨ ∀ i ∈ idsL s.roots, i ∈ idsL s'.roots)
    (hheld : ∀ t ∈ s'.roots, ∃ k, s'.refs k = some (.rc t.data.1))
    (href : ∀ k, (s'.refs k = s.refs k ∧ m'.refs k = m.refs k ∧ ∀ u ∈ subsL s.roots, s.refs k = some (.rc u.data.1) → m.look k = some (relab φ u) →
          ∃ u' ∈ subsL s'.roots, u'.data.1 = u.data.1 ∧ m'.look k = some (relab φ' u')) ∨
        (RefRel φ' (m'.refs k) (s'.refs k) ∧ (∀ i, s'.refs k = some (.rc i) → ∃ u ∈ subsL s'.roots, u.data.1 = i ∧ m'.look k = some (relab φ' u)) ∧
          (∀ i, s'.refs k = some (.weak i) → i ∈ idsL s'.roots) ∧ ∀ c n, s'.refs k = some (.iter (some c) n) → c < s'.next)) :
    SSim φ' m' s' := by
  have hr := hst.reach S.reach hsafe
  have hrefs : ∀ k, RefRel φ' (m'.refs k) (s'.refs k) := by
    intro k
    rcases href k with ⟨h1, h2, -⟩ | ⟨h, -⟩
    · rw [h1, h2]
      have := S.refs k
      cases e : s.refs k with
      | none => rw [e] at this; rw [S.ref_none e]; trivial
      | some q =>
        cases q with
        | rc i => obtain ⟨r, hr⟩ := S.mref_rc e; rw [hr]; trivial
        | weak i => rw [S.mref_weak e]; simp only [RefRel]; rw [hφ i (S.oldW k i e)]
        | guard k' w => obtain ⟨a, ha⟩ := S.mref_guard e; rw [ha]; exact ⟨rfl, rfl⟩
        | iter c n =>
          obtain ⟨it, h3, h4, h5⟩ := S.mref_iter e
          rw [h3]
          refine ⟨h4, fun hne => ?_⟩
          rw [h5 hne]
          cases c with
          | none => rfl
          | some c => simp [hφ c (S.oldI k c n e)]
    · exact h
  have hrc : ∀ k i, s'.refs k = some (.rc i) → ∃ u ∈ subsL s'.roots, u.data.1 = i ∧ m'.look k = some (relab φ' u) := by
    intro k i h
    rcases href k with ⟨h1, h2, h3⟩ | ⟨-, h1, -⟩
    · rw [h1] at h
      obtain ⟨u, g1, rfl, g3⟩ := S.rc k i h
      exact h3 u g1 h g3
    · exact h1 i h
  refine ⟨hr, hx, hnd, hrefs, hrc, hheld, hold, fun k i h => ?_, fun k c n h => ?_, fun k i h hni j hj hji => ?_⟩
  · rcases href k with ⟨h1, -⟩ | ⟨-, -, h1, -⟩
    · rw [h1] at h; exact Nat.lt_of_lt_of_le (S.oldW k i h) hn
    · exact hold i (h1 i h)
  · rcases href k with ⟨h1, -⟩ | ⟨-, -, -, h1⟩
    · rw [h1] at h; exact Nat.lt_of_lt_of_le (S.oldI k c n h) hn
    · exact h1 c n h
  · rcases href k with ⟨h1, h2, -⟩ | ⟨-, -, h1, -⟩
    · rw [h1] at h
      have hin := hφ i (S.oldW k i h)
      by_cases hi : i ∈ idsL s.roots
      · rcases hsub with h3 | h3
        · have h4 := h3 j hj
          rw [hin, hφ j (S.oldR j h4)] at hji
          exact hni (S.inj h4 hi hji ▸ hj)
        · exact hni (h3 i hi)
      · have hns : ¬ m.Shown (φ i) := by
          rw [S.shown]
          rintro ⟨q, hq, e⟩
          exact S.gone k i h hi q hq e
        refine c36_gone_partial S.reach (S.mref_weak h) hns hsafe hst ?_
        -- `j` is shown in the new state
        obtain ⟨t, ht, hjt⟩ := mem_idsL.mp hj
        obtain ⟨k', hk'⟩ := hheld t ht
        obtain ⟨u, g1, g2, g3⟩ := hrc k' _ hk'
        have : u = t := sub_unique (List.Nodup.of_map _ hnd) g1 (root_mem_subsL ht) g2
        subst this
        exact ⟨k', _, g3, by rw [relab_ids, ← hin, ← hji]; exact List.mem_map_of_mem hjt⟩
    · exact hni (h1 i h)

/-- The shared trees stay as they are. -/
theorem SSim.stay (S : SSim φ m s) (hsafe : Safe m op) (hst : Steps m op m') (hx : s'.excl = m'.excl.store) (hroots : s'.roots = s.roots) (hn : s'.next = s.next)
    (hheld : ∀ t ∈ s.roots, ∃ k, s'.refs k = some (.rc t.data.1))
    (href : ∀ k, (s'.refs k = s.refs k ∧ m'.refs k = m.refs k ∧ m'.look k = m.look k) ∨
        (RefRel φ (m'.refs k) (s'.refs k) ∧ (∀ i, s'.refs k = some (.rc i) → ∃ u ∈ subsL s.roots, u.data.1 = i ∧ m'.look k = some (relab φ u)) ∧
          (∀ i, s'.refs k = some (.weak i) → i ∈ idsL s.roots) ∧ ∀ c n, s'.refs k = some (.iter (some c) n) → c < s.next)) :
    SSim φ m' s' := by
  refine S.step hsafe hst hx (by rw [hn]; exact Nat.le_refl _) (fun _ _ => rfl) (by rw [hroots]; exact S.nd) (by rw [hroots, hn]; exact S.oldR)
    (.inl (by rw [hroots]; exact fun _ h => h)) (by rw [hroots]; exact hheld) fun k => ?_
  rw [hroots, hn]
  rcases href k with ⟨h1, h2, h3⟩ | h
  · exact .inl ⟨h1, h2, fun u hu _ hl => ⟨u, hu, rfl, by rw [h3]; exact hl⟩⟩
  · exact .inr h

/-- Only exclusive values change. -/
theorem SSim.exclOnly (S : SSim φ m s) (hsafe : Safe m op) (hst : Steps m op m') (hr : m'.refs = m.refs) (hl : ∀ j, m'.look j = m.look j) {e : Store α}
    (he : e = m'.excl.store) : SSim φ m' { s with excl := e } :=
  S.stay hsafe hst he rfl rfl S.held fun k => .inl ⟨rfl, by rw [hr], hl k⟩

theorem store_eq_of {m m' : RMachine α} (hf : m'.fresh = m.fresh + 1) (hv : m'.excl.store.vars = m.excl.store.vars) (hlog : m'.heap.log = m.heap.log) :
    m'.excl.store = { m.excl.store with fresh := m.fresh + 1 } := by
  have : m'.excl.store = ⟨m'.excl.store.vars, m'.fresh, m'.heap.log⟩ := rfl
  rw [this, hv, hlog, hf]; rfl

/-- A new shared value. -/
theorem SSim.bind (S : SSim φ m s) (hsafe : Safe m op) (hst : Steps m op m') (hf : m'.fresh = m.fresh + 1) (hr : ∀ j, j ≠ m.fresh → m'.refs j = m.refs j)
    (hl : ∀ j, j ≠ m.fresh → m'.look j = m.look j) (hv : m'.excl.store.vars = m.excl.store.vars) (hlog : m'.heap.log = m.heap.log) {r : SRef}
    (h1 : RefRel φ (m'.refs m.fresh) (some r)) (h2 : ∀ i, r = .rc i → ∃ u ∈ subsL s.roots, u.data.1 = i ∧ m'.look m.fresh = some (relab φ u))
    (h3 : ∀ i, r = .weak i → i ∈ idsL s.roots) (h4 : ∀ c n, r = .iter (some c) n → c < s.next) : SSim φ m' (s.bindRef r) := by
  have hff := S.fresh
  refine S.stay hsafe hst ?_ rfl rfl ?_ fun k => ?_
  · rw [store_eq_of hf hv hlog, ← S.excl]
    simp only [SStore.bindRef, hff]
  · intro t ht
    obtain ⟨k, hk⟩ := S.held t ht
    refine ⟨k, ?_⟩
    have hlt : k ≠ s.excl.fresh := Nat.ne_of_lt (S.ref_lt hk)
    simp only [SStore.bindRef, upd_of_ne _ _ hlt, hk]
  · by_cases e : k = m.fresh
    · subst e
      right
      simp only [SStore.bindRef, hff, upd_self, Option.some.injEq]
      exact ⟨h1, h2, h3, h4⟩
    · left
      have e' : k ≠ s.excl.fresh := by rw [hff]; exact e
      simp only [SStore.bindRef, upd_of_ne _ _ e', true_and]
      exact ⟨hr k e, hl k e⟩

/-- A shared value other than a handle goes. -/
theorem SSim.lose (S : SSim φ m s) (hsafe : Safe m op) (hst : Steps m op m') {k : Var} (hk : ∀ i, s.refs k ≠ some (.rc i)) (hr : m'.refs = upd m.refs k none)
    (hl : ∀ j, j ≠ k → m'.look j = m.look j) (hx : m'.excl.store = m.excl.store) : SSim φ m' (s.setRef k none) := by
  refine S.stay hsafe hst ?_ rfl rfl ?_ fun j => ?_
  · show s.excl = _; rw [hx, S.excl]
  · intro t ht
    obtain ⟨j, hj⟩ := S.held t ht
    have : j ≠ k := by rintro rfl; exact hk _ hj
    exact ⟨j, by simp only [SStore.setRef, upd_of_ne _ _ this, hj]⟩
  · by_cases e : j = k
    · subst e; right
      rw [hr]
      simp only [SStore.setRef, upd_self, reduceCtorEq, false_implies, implies_true, and_true]
      trivial
    · left
      rw [hr]
      simp only [SStore.setRef, upd_of_ne _ _ e, true_and]
      exact hl j e

/-- The trees change; `φ` grows. -/
theorem SSim.edit (S : SSim φ m s) (hsafe : Safe m op) (hst : Steps m op m') (hx : s'.excl = m'.excl.store) (hn : s.next ≤ s'.next)
    (hφ : ∀ i, i < s.next → φ' i = φ i) (hnd : ((idsL s'.roots).map φ').Nodup) (hold : ∀ i ∈ idsL s'.roots, i < s'.next)
    (hsub : ∀ i ∈ idsL s.roots, i ∈ idsL s'.roots) (hroot : ∀ t ∈ s'.roots, (∃ t' ∈ s.roots, t'.data.1 = t.data.1) ∨ ∃ k, s'.refs k = some (.rc t.data.1))
    (hrefs : s'.refs = s.refs) (hr : m'.refs = m.refs) {f : RTree (Addr × α) → RTree (Addr × α)} {g : RTree (Nat × α) → RTree (Nat × α)}
    (hl : ∀ j, m'.look j = (m.look j).map f) (hg : ∀ u, (g u).data.1 = u.data.1)
    (hfg : ∀ u ∈ subsL s.roots, f (relab φ u) = relab φ' (g u)) (hgs : ∀ u ∈ subsL s.roots, g u ∈ subsL s'.roots) : SSim φ' m' s' := by
  refine S.step hsafe hst hx hn hφ hnd hold (.inr hsub) ?_ fun k => .inl ⟨by rw [hrefs], by rw [hr], fun u hu _ hk => ?_⟩
  · intro t ht
    rcases hroot t ht with ⟨t', h1, h2⟩ | h
    · obtain ⟨k, hk⟩ := S.held t' h1
      exact ⟨k, by rw [hrefs, hk, h2]⟩
    · exact h
  · exact ⟨g u, hgs u hu, hg u, by rw [hl, hk, Option.map_some, hfg u hu]⟩

end
end Trees
