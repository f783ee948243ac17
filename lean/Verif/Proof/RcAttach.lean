import Verif.Proof.RcChange
/-
Calls through handles that attach an exclusive tree.
-/
namespace Trees
set_option linter.unusedSimpArgs false
set_option linter.unusedVariables false
variable {α β γ : Type}
open Classical

section
variable {m : RMachine α} {G : Heap α} {K : Addr → List Addr} {T : Var → Option Addr}

/-- The argument is dropped. -/
theorem RInv.dropArg (I : RInv m G K T) {y : Var} {hd : Handle} (hy : m.env y = some hd) (hi : hd.isIter = false) :
    ∃ G' K', dropRoot hd.addr m.heap = .ok () (bumpE (extra G m.fresh T) G') ∧
      RInv ⟨bumpE (extra G m.fresh T) G', upd m.env y none, m.refs, m.fresh⟩ G' K' T ∧ Keep (shared m.env G K) G K G' K' ∧
      ∃ v, m.excl.store.vars y = some v ∧
        (⟨bumpE (extra G m.fresh T) G', upd m.env y none, m.fresh⟩ : Machine α).store = (m.excl.store.set y none).drop v.post := by
  have h := I.excl_step (.drop y)
  have hs : step m.excl (.drop y) = m.excl.run (m.excl.setEnv y none) (dropRoot hd.addr) fun _ h => m.excl.ret h (m.excl.setEnv y none) .unit := by
    have : m.excl.env y = some hd := hy
    simp only [step, this]
    cases hd with
    | iter f => simp [Handle.isIter] at hi
    | tree r => rfl
    | forest r => rfl
  have hv : ∃ v, m.excl.store.vars y = some v := by
    obtain ⟨v, -, h2⟩ := I.hden hy
    exact ⟨v, h2⟩
  obtain ⟨v, hv⟩ := hv
  have hsp : specStep m.excl.store (.drop y) = .ok ((m.excl.store.set y none).drop v.post) .unit := by
    simp only [specStep, hv]
  rw [hs, hsp] at h
  cases hr : dropRoot hd.addr m.heap with
  | err e s =>
    have hr' : dropRoot hd.addr m.excl.heap = .err e s := hr
    simp only [Machine.run, hr'] at h
    cases e <;> exact h.elim
  | ok u s =>
    have hr' : dropRoot hd.addr m.excl.heap = .ok u s := hr
    simp only [Machine.run, hr'] at h
    obtain ⟨-, h1, G', K', h2, h3, h4, -⟩ := h
    have e1 : s = bumpE (extra G m.fresh T) G' := h2
    subst e1
    exact ⟨G', K', rfl, h3, h4, v, hv, h1⟩

/-- `up` after attaching `t` below `u`. -/
theorem up_attach {G' : Heap α} {u t : Addr} {ks : List Addr} (hI : Inv G K) (hI' : Inv G' (upd K u ks)) (s : Same G G')
    (hks : ∀ c, c ∈ ks ↔ c = t ∨ c ∈ K u) {b : Addr} (hb : G.Used b) : G'.up b = if b = t then some u else G.up b := by
  have hb' := (s.used b).mpr hb
  by_cases h : b = t
  · rw [if_pos h]
    have : b ∈ upd K u ks u := by rw [upd_self, hks]; exact .inl h
    exact hI'.up_of_mem this
  · rw [if_neg h]
    refine Option.ext fun p => ?_
    have h1 := hI'.mem_iff (a := p) (c := b)
    have h2 := hI.mem_iff (a := p) (c := b)
    have h3 : b ∈ upd K u ks p ↔ b ∈ K p := by
      by_cases hp : p = u
      · subst hp; rw [upd_self, hks]; simp [h]
      · rw [upd_of_ne _ _ hp]
    rw [h1, h2] at h3
    simpa [hb, hb'] using h3

/-- A tree has been attached below a shared node. -/
theorem RInv.attach (I : RInv m G K T) {u t : Addr} {y : Var} {G' : Heap α} {ks : List Addr} (hu : G.Used u) (hx : ¬ Excl m.env K u)
    (hy : m.env y = some (.tree t)) (s : Same G G') (hI' : Inv G' (upd K u ks)) (hks : ∀ c, c ∈ ks ↔ c = t ∨ c ∈ K u) :
    RInv ⟨bumpE (extra G m.fresh T) G', upd m.env y none, m.refs, m.fresh⟩ G' (upd K u ks) T := by
  have ht := I.hnd y _ hy
  have hup : ∀ {b}, G.Used b → G'.up b = if b = t then some u else G.up b := fun hb => up_attach I.inv hI' s hks hb
  have henv : ∀ x hd, upd m.env y none x = some hd → m.env x = some hd ∧ x ≠ y := by
    intro x hd h
    by_cases e : x = y
    · subst e; simp at h
    · rw [upd_of_ne _ _ e] at h; exact ⟨h, e⟩
  have hE : extra G' m.fresh T = extra G m.fresh T := by
    refine extra_congr fun k a hk => ?_
    have h1 := (I.tgt k a hk).2
    have h2 : a ≠ t := by
      rintro rfl; exact h1.2 ⟨y, _, hy, .refl _⟩
    rw [hup h1.1, if_neg h2]
  rw [← hE]
  refine I.change (fun x hd h => (henv x hd h).1) hI' (I.st.same s) ?_ ?_ ?_ ?_ (Nat.le_of_eq s.nextAddr.symm) ?_ ?_
  · intro a c hc
    have hv : G'.IsVal c ↔ G.IsVal c := by simp only [Heap.IsVal, s.data]
    rw [hv]
    by_cases ha : a = u
    · subst ha
      rw [upd_self, hks] at hc
      rcases hc with rfl | hc
      · exact ht.kind
      · exact I.kv a c hc
    · rw [upd_of_ne _ _ ha] at hc; exact I.kv a c hc
  · intro x hd h b hb
    obtain ⟨h1, h2⟩ := henv x hd h
    have hbu := I.inv.reach_used (I.hnd x hd h1).used hb
    have hbne : b ≠ u := by rintro rfl; exact hx ⟨x, hd, h1, hb⟩
    refine ⟨(s.used b).mpr hbu, upd_of_ne _ _ hbne, by rw [s.data], ?_⟩
    have : b ≠ t := by
      rintro rfl
      have := I.inv.root_disjoint (I.hnd x hd h1).root ht.root hb (.refl _)
      exact h2 (I.dist x y hd _ h1 hy this)
    rw [hup hbu, if_neg this]
  · intro k a hk
    exact ⟨(s.used a).mpr (I.tgt k a hk).2.1, fun r hr => hr.same s⟩
  · intro a ha hn
    have ha' := (s.used a).mp ha
    rw [hup ha'] at hn
    split at hn
    · simp at hn
    · rename_i hat
      rcases I.roots a ha' hn with ⟨x, hd, h1, h2⟩ | h
      · refine .inl ⟨x, hd, ?_, h2⟩
        have : x ≠ y := by
          rintro rfl
          rw [hy] at h1; cases h1; exact hat h2.symm
        rw [upd_of_ne _ _ this]; exact h1
      · exact .inr h
  · intro a h _; rw [← s.live]; exact h
  · intro a d _ _ h; exact ⟨d, by rw [s.data]; exact h⟩

/-- The root above a shared node is not an exclusive one. -/
theorem RInv.attachH (I : RInv m G K T) {u t : Addr} {y : Var} (hu : G.Used u) (hx : ¬ Excl m.env K u) (hy : m.env y = some (.tree t)) : Attach G K u t := by
  have ht := I.hnd y _ hy
  obtain ⟨r, h1, h2, h3⟩ := I.inv.exists_root hu
  refine ⟨I.inv, hu, ht.used, ht.kind, ht.root, r, I.inv.rootOf_of_reach h2 h3, ?_⟩
  rintro rfl
  exact hx ⟨y, _, hy, h3⟩

theorem Attach.up' {u t a : Addr} {e : Addr → Nat} {b : Int} (A : Attach G K u t) : Attach (bumpE e (G.bor a b)) K u t :=
  ⟨(A.inv.bor a b).over _ _, A.uU, A.tU, A.tV, A.tr, A.ne⟩

/-- Attaching code under an exclusive borrow. -/
theorem RInv.attach_call (I : RInv m G K T) {a u t : Addr} {y : Var} {ks : List Addr} {r : RcRef} {f : Addr → M α Unit} (ha : G.Used a) (hr : r.Is G a) (hb : G.borrow a = 0)
    (hu : G.Used u) (hx : ¬ Excl m.env K u) (hy : m.env y = some (.tree t)) (hks : ∀ c, c ∈ ks ↔ c = t ∨ c ∈ K u)
    (hf : ∀ h, Attach h K u t → ∃ h', f a h = .ok () h' ∧ Same h h' ∧ Inv h' (upd K u ks)) :
    ∃ G', withMutArg r t f m.heap = .ok () (bumpE (extra G m.fresh T) G') ∧ Same G G' ∧
      RInv ⟨bumpE (extra G m.fresh T) G', upd m.env y none, m.refs, m.fresh⟩ G' (upd K u ks) T := by
  obtain ⟨H', e1, e2, e3⟩ := hf _ ((I.attachH hu hx hy).up' (e := extra G m.fresh T) (a := a) (b := -1))
  obtain ⟨G', f1, f2, f3, f4⟩ := link_bor hb e2
  refine ⟨G', ?_, f2, I.attach hu hx hy f2 (f4 _ e3) hks⟩
  have hl : H'.live a = true := by rw [e2.live]; exact ha.1
  simp only [withMutArg, I.heap, borrowMut_ok hr ha hb, finally_, e1, releaseMut_ok hl, Res.bind_ok, f1]

/-- On a conflict the argument is dropped. -/
theorem RInv.arg_conflict (I : RInv m G K T) {a t : Addr} {r : RcRef} {f : Addr → M α Unit} (ha : G.Used a) (hr : r.Is G a) (hb : G.borrow a ≠ 0)
    {H' : Heap α} (hd : dropRoot t m.heap = .ok () H') : withMutArg r t f m.heap = .err .panic H' := by
  rw [I.heap] at hd
  simp only [withMutArg, I.heap, borrowMut_conflict hr ha hb, hd, Res.bind_ok]

end
end Trees
