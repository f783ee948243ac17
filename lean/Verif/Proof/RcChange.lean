import Verif.Proof.RcState
/-
Building blocks for changes of the state.
-/
namespace Trees
set_option linter.unusedSimpArgs false
set_option linter.unusedVariables false
variable {α β γ : Type}
open Classical

section
variable {m : RMachine α} {G : Heap α} {K : Addr → List Addr} {T : Var → Option Addr}

theorem excl_change {env env' : Var → Option Handle} {K' : Addr → List Addr} (henv : ∀ x hd, env' x = some hd → env x = some hd)
    (hk : ∀ x hd, env' x = some hd → ∀ b, Reach K hd.addr b → K' b = K b) {a : Addr} (h : Excl env' K' a) : Excl env K a := by
  obtain ⟨x, hd, h1, h2⟩ := h
  exact ⟨x, hd, henv x hd h1, (reach_congr (hk x hd h1)).mp h2⟩

/-- The memory changes, exclusive values may go. -/
theorem RInv.change (I : RInv m G K T) {G' : Heap α} {K' : Addr → List Addr} {env' : Var → Option Handle}
    (henv : ∀ x hd, env' x = some hd → m.env x = some hd) (inv : Inv G' K') (st : SInv G') (kv : ∀ a c, c ∈ K' a → G'.IsVal c)
    (keepE : ∀ x hd, env' x = some hd → ∀ b, Reach K hd.addr b → G'.Used b ∧ K' b = K b ∧ G'.data b = G.data b ∧ G'.up b = G.up b)
    (keepS : ∀ k a, T k = some a → G'.Used a ∧ ∀ r : RcRef, r.Is G a → r.Is G' a)
    (roots : ∀ a, G'.Used a → G'.up a = none → (∃ x hd, env' x = some hd ∧ hd.addr = a) ∨ ∃ k, T k = some a)
    (next : G.nextAddr ≤ G'.nextAddr)
    (live : ∀ a, G'.live a = true → a < G.nextAddr → G.live a = true)
    (wk : ∀ a d, G'.live a = true → ¬ Excl m.env K a → G.data a = .scattered d a → ∃ d', G'.data a = .scattered d' a) :
    RInv ⟨bumpE (extra G' m.fresh T) G', env', m.refs, m.fresh⟩ G' K' T := by
  have hx : ∀ {a}, Excl env' K' a → Excl m.env K a := fun h => excl_change henv (fun x hd h b hb => (keepE x hd h b hb).2.1) h
  have hnone : ∀ {x}, m.env x = none → env' x = none := fun {x} h => by
    cases he : env' x with
    | none => rfl
    | some hd => rw [henv x hd he] at h; simp at h
  refine ⟨rfl, inv, st, kv, ?_, ?_, fun x hx => ⟨hnone (I.fr x hx).1, (I.fr x hx).2⟩, fun x r hr => hnone (I.sep x r hr), ?_, ?_, roots, I.guards, ?_⟩
  · intro x hd h
    have ho := I.hnd x hd (henv x hd h)
    obtain ⟨h1, h2, h3, h4⟩ := keepE x hd h _ (.refl _)
    refine ⟨h1, h4.trans ho.root, ?_⟩
    have := ho.kind
    cases hd <;> simp only [Handle.addr] at h3 <;> simpa only [HKind, Heap.IsVal, Heap.val, h3] using this
  · intro x y hx hy h h' e
    exact I.dist x y hx hy (henv x hx h) (henv y hy h') e
  · intro k r hr
    obtain ⟨a, h1, h2⟩ := I.rcs k r hr
    exact ⟨a, h1, (keepS k a h1).2 r h2⟩
  · intro k a h
    exact ⟨(I.tgt k a h).1, (keepS k a h).1, fun h' => (I.tgt k a h).2.2 (hx h')⟩
  · intro k r hr
    obtain ⟨a, rfl, h1, h2⟩ := I.wk k r hr
    refine ⟨a, rfl, Nat.lt_of_lt_of_le h1 next, fun hl => ?_⟩
    obtain ⟨⟨d, h3⟩, h4⟩ := h2 (live a hl h1)
    exact ⟨wk a d hl h4 h3, fun h' => h4 (hx h')⟩


theorem extra_congr {G' : Heap α} {n : Nat} (h : ∀ k a, T k = some a → (G'.up a = none ↔ G.up a = none)) : extra G' n T = extra G n T := by
  funext a
  simp only [extra]
  by_cases hn : nh n T a = 0
  · simp [hn]
  · obtain ⟨k, -, hk⟩ := nh_pos.mp hn
    simp only [h k a hk]

/-- A root has a handle (which is not additional). -/
theorem RInv.nh_root (I : RInv m G K T) {b : Addr} (hu : G.Used b) (hx : ¬ Excl m.env K b) (h : G.up b = none) : nh m.fresh T b ≠ 0 := by
  rcases I.roots b hu h with ⟨x, hd, h1, rfl⟩ | ⟨k, hk⟩
  · exact absurd ⟨x, hd, h1, .refl _⟩ hx
  · exact nh_pos.mpr ⟨k, I.lt hk, hk⟩

theorem RInv.extra_bind (I : RInv m G K T) {b : Addr} (hu : G.Used b) (hx : ¬ Excl m.env K b) :
    extra G (m.fresh + 1) (upd T m.fresh (some b)) = upd (extra G m.fresh T) b (extra G m.fresh T b + 1) := by
  funext a
  simp only [extra, nh_bind (I.tnone (Nat.le_refl _)), upd_apply]
  by_cases ha : a = b
  · subst ha
    simp only [if_true]
    by_cases h : G.up a = none
    · have := I.nh_root hu hx h
      simp only [h, if_true]; omega
    · simp [h]
  · have : ¬ b = a := fun e => ha e.symm
    simp [ha, this]

/-- A new handle. -/
theorem RInv.bindRc (I : RInv m G K T) {b : Addr} {r : RcRef} (hu : G.Used b) (hx : ¬ Excl m.env K b) (hr : r.Is G b) :
    RInv ⟨bumpE (extra G (m.fresh + 1) (upd T m.fresh (some b))) G, m.env, upd m.refs m.fresh (some (.rc r)), m.fresh + 1⟩ G K
      (upd T m.fresh (some b)) := by
  have hT := I.tnone (Nat.le_refl m.fresh)
  have hf := I.fr m.fresh (Nat.le_refl _)
  have hold : ∀ {k a}, T k = some a → upd T m.fresh (some b) k = some a := fun {k a} h => by
    have : k ≠ m.fresh := fun e => by rw [e, hT] at h; simp at h
    rw [upd_of_ne _ _ this]; exact h
  refine ⟨rfl, I.inv, I.st, I.kv, I.hnd, I.dist, ?_, ?_, ?_, ?_, ?_, ?_, ?_⟩
  · intro x hx
    have h1 : m.fresh ≤ x := Nat.le_of_succ_le hx
    have h2 : x ≠ m.fresh := fun e => by subst e; exact absurd hx (Nat.not_succ_le_self _)
    exact ⟨(I.fr x h1).1, by show upd m.refs _ _ x = _; rw [upd_of_ne _ _ h2]; exact (I.fr x h1).2⟩
  · intro x q hq
    by_cases h : x = m.fresh
    · rw [h]; exact hf.1
    · exact I.sep x q (by rw [← hq]; exact (upd_of_ne _ _ h).symm)
  · intro k q hq
    by_cases h : k = m.fresh
    · subst h
      simp at hq; subst hq
      exact ⟨b, by simp, hr⟩
    · obtain ⟨a, h1, h2⟩ := I.rcs k q (by rw [← hq]; exact (upd_of_ne _ _ h).symm)
      exact ⟨a, hold h1, h2⟩
  · intro k a h
    by_cases hk : k = m.fresh
    · subst hk
      simp at h; subst h
      exact ⟨⟨r, by simp⟩, hu, hx⟩
    · rw [upd_of_ne _ _ hk] at h
      refine ⟨?_, (I.tgt k a h).2⟩
      obtain ⟨q, hq⟩ := (I.tgt k a h).1
      exact ⟨q, by show upd m.refs _ _ k = _; rw [upd_of_ne _ _ hk]; exact hq⟩
  · intro a h1 h2
    rcases I.roots a h1 h2 with h | ⟨k, h⟩
    · exact .inl h
    · exact .inr ⟨k, hold h⟩
  · intro g k a w hg
    by_cases h : g = m.fresh
    · subst h; simp at hg
    · exact hold (I.guards g k a w (by rw [← hg]; exact (upd_of_ne _ _ h).symm))
  · intro k q hq
    by_cases h : k = m.fresh
    · subst h; simp at hq
    · exact I.wk k q (by rw [← hq]; exact (upd_of_ne _ _ h).symm)

/-- A value that is not a handle may be held. -/
def RefOK (m : RMachine α) (G : Heap α) (K : Addr → List Addr) (T : Var → Option Addr) : Option Ref → Prop
  | none => True
  | some (.rc _) => False
  | some (.weak r) => ∃ a, r = .scattered a ∧ a < G.nextAddr ∧ (G.live a = true → (∃ d, G.data a = .scattered d a) ∧ ¬ Excl m.env K a)
  | some (.guard k a _) => T k = some a
  | some (.iter _) => True

/-- A variable that holds no handle gets another value. -/
theorem RInv.setRef (I : RInv m G K T) {k : Var} {o : Option Ref} {n : Nat} (hk : T k = none) (he : m.env k = none) (ho : RefOK m G K T o) (hkn : k < n) (hn : m.fresh ≤ n) :
    RInv ⟨m.heap, m.env, upd m.refs k o, n⟩ G K T := by
  have hE : extra G n T = extra G m.fresh T := by funext a; simp only [extra, nh_ext hn fun k => I.tnone]
  refine ⟨by show m.heap = bumpE (extra G n T) G; rw [hE]; exact I.heap, I.inv, I.st, I.kv, I.hnd, I.dist, ?_, ?_, ?_, ?_, I.roots, ?_, ?_⟩
  · intro x hx
    have h2 : x ≠ k := fun e => by subst e; exact absurd hkn (Nat.not_lt.mpr hx)
    exact ⟨(I.fr x (Nat.le_trans hn hx)).1, by show upd m.refs _ _ x = _; rw [upd_of_ne _ _ h2]; exact (I.fr x (Nat.le_trans hn hx)).2⟩
  · intro x q hq
    by_cases h : x = k
    · rw [h]; exact he
    · exact I.sep x q (by rw [← hq]; exact (upd_of_ne _ _ h).symm)
  · intro j q hq
    by_cases h : j = k
    · subst h
      simp at hq; subst hq; exact ho.elim
    · exact I.rcs j q (by rw [← hq]; exact (upd_of_ne _ _ h).symm)
  · intro j a h
    have hj : j ≠ k := fun e => by rw [e, hk] at h; simp at h
    refine ⟨?_, (I.tgt j a h).2⟩
    obtain ⟨q, hq⟩ := (I.tgt j a h).1
    exact ⟨q, by show upd m.refs _ _ j = _; rw [upd_of_ne _ _ hj]; exact hq⟩
  · intro g j a w hg
    by_cases h : g = k
    · subst h; simp at hg; subst hg; exact ho
    · exact I.guards g j a w (by rw [← hg]; exact (upd_of_ne _ _ h).symm)
  · intro j q hq
    by_cases h : j = k
    · subst h; simp at hq; subst hq; exact ho
    · exact I.wk j q (by rw [← hq]; exact (upd_of_ne _ _ h).symm)

theorem RInv.bor (I : RInv m G K T) (a : Addr) (b : Int) : RInv ⟨m.heap.bor a b, m.env, m.refs, m.fresh⟩ (G.bor a b) K T := by
  refine ⟨by show m.heap.bor a b = _; rw [I.heap]; rfl, I.inv.bor a b, ?_, I.kv, fun x hd h => ?_, I.dist, I.fr, I.sep, fun k r h => ?_, I.tgt, I.roots, I.guards, I.wk⟩
  · exact ⟨I.st.liveB, I.st.vecB, I.st.cnt, I.st.pos, I.st.disj, I.st.owner, I.st.tight⟩
  · have := I.hnd x hd h
    refine ⟨this.used, this.root, ?_⟩
    have := this.kind
    cases hd <;> exact this
  · obtain ⟨a, h1, h2⟩ := I.rcs k r h
    exact ⟨a, h1, by cases r <;> exact h2⟩

/-- The guards on the handle in `k`. -/
theorem guarded_false (I : RInv m G K T) {k : Var} (h : m.guarded k = false) : ∀ g a w, m.refs g ≠ some (.guard k a w) := by
  intro g a w hg
  have : m.guarded k = true := by
    simp only [RMachine.guarded, List.any_eq_true, List.mem_range]
    exact ⟨g, I.refs_lt hg, by rw [hg]; simp⟩
  rw [h] at this; simp at this

end
end Trees
