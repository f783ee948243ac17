import Verif.Proof.RcLook
/-
The borrow flags; building blocks for changes of the state.
-/
namespace Trees
set_option linter.unusedSimpArgs false
set_option linter.unusedVariables false
variable {α β γ : Type}
open Classical

section
variable {m : RMachine α} {G : Heap α} {K : Addr → List Addr} {T : Var → Option Addr}

/-! ### Views -/

theorem RInv.isV (I : RInv m G K T) {k : Var} {a : Addr} (h : T k = some a) : G.IsVal a := by
  obtain ⟨r, hr⟩ := (I.tgt k a h).1
  obtain ⟨b, h3, h4⟩ := I.rcs k r hr
  rw [h] at h3; cases h3
  exact h4.isVal

theorem RInv.ref (I : RInv m G K T) {k : Var} {a : Addr} (h : T k = some a) : ∃ r, m.refs k = some (.rc r) ∧ r.Is G a := by
  obtain ⟨r, hr⟩ := (I.tgt k a h).1
  obtain ⟨b, h3, h4⟩ := I.rcs k r hr
  rw [h] at h3; cases h3
  exact ⟨r, hr, h4⟩

theorem RInv.den (I : RInv m G K T) {k : Var} {a : Addr} (h : T k = some a) : ∃ t, Den G.lab K a t :=
  exists_lab I.inv I.kv (I.tgt k a h).2.1 (I.isV h)

theorem RInv.inv' (I : RInv m G K T) : Inv m.heap K := by rw [I.heap]; exact I.inv.over _ _

theorem RInv.look_of (I : RInv m G K T) {k : Var} {a : Addr} (h : T k = some a) {t : RTree (Addr × α)} (hd : Den G.lab K a t) :
    m.look k = some t := by
  obtain ⟨r, h1, h2⟩ := I.ref h
  have h3 : r.at m.heap = a := by rw [I.heap]; exact h2.at_eq _ _
  have h4 : m.heap.Used a := by rw [I.heap]; exact (I.tgt k a h).2.1
  have h5 : Den m.heap.lab K a t := by rw [I.heap]; exact hd
  simp only [RMachine.look, h1, h3, readNode_ok I.inv' h4 h5]

theorem RInv.look_iff (I : RInv m G K T) {k : Var} {t : RTree (Addr × α)} : m.look k = some t ↔ ∃ a, T k = some a ∧ Den G.lab K a t := by
  constructor
  · intro h
    cases hT : T k with
    | none =>
      exfalso
      simp only [RMachine.look] at h
      split at h
      · rename_i r hr
        obtain ⟨a, h1, -⟩ := I.rcs k r hr
        rw [hT] at h1; simp at h1
      · simp at h
    | some a =>
      obtain ⟨t', ht⟩ := I.den hT
      have := I.look_of hT ht
      rw [h] at this; cases this
      exact ⟨a, rfl, ht⟩
  · rintro ⟨a, h1, h2⟩; exact I.look_of h1 h2

theorem RInv.look_none (I : RInv m G K T) {k : Var} : m.look k = none ↔ T k = none := by
  constructor
  · intro h
    cases hT : T k with
    | none => rfl
    | some a =>
      obtain ⟨t, ht⟩ := I.den hT
      rw [I.look_of hT ht] at h; simp at h
  · intro h
    cases hl : m.look k with
    | none => rfl
    | some t =>
      obtain ⟨a, h1, -⟩ := I.look_iff.mp hl
      rw [h] at h1; simp at h1

theorem RInv.nodeOf (I : RInv m G K T) (k : Var) : m.nodeOf k = T k := by
  cases hT : T k with
  | none => simp [RMachine.nodeOf, I.look_none.mpr hT]
  | some a =>
    obtain ⟨t, ht⟩ := I.den hT
    simp [RMachine.nodeOf, I.look_of hT ht, ht.root]

/-- Views that do not change. -/
theorem RInv.look_congr {m' : RMachine α} {G' : Heap α} {K' T'} (I : RInv m G K T) (I' : RInv m' G' K' T') {k : Var} (hT : T' k = T k)
    (h : ∀ a, T k = some a → ∀ b, Reach K a b → K' b = K b ∧ G'.data b = G.data b) : m'.look k = m.look k := by
  cases ht : T k with
  | none => rw [I.look_none.mpr ht, I'.look_none.mpr (hT.trans ht)]
  | some a =>
    obtain ⟨t, hd⟩ := I.den ht
    rw [I.look_of ht hd]
    refine I'.look_of (hT.trans ht) (hd.congr fun b hb => ?_)
    obtain ⟨h1, h2⟩ := h a ht b hb
    exact ⟨h1, lab_congr h2⟩

/-- Views that change in the same way. -/
theorem RInv.look_map {m' : RMachine α} {G' : Heap α} {K' T'} (I : RInv m G K T) (I' : RInv m' G' K' T') {k : Var} (hT : T' k = T k)
    {f : RTree (Addr × α) → RTree (Addr × α)}
    (h : ∀ a, T k = some a → ∀ t, Den G.lab K a t → Den G'.lab K' a (f t)) : m'.look k = (m.look k).map f := by
  cases ht : T k with
  | none => rw [I.look_none.mpr ht, I'.look_none.mpr (hT.trans ht)]; rfl
  | some a =>
    obtain ⟨t, hd⟩ := I.den ht
    rw [I.look_of ht hd]
    exact I'.look_of (hT.trans ht) (h a ht t hd)

/-- Exclusive values that do not change. -/
theorem RInv.view_congr {m' : RMachine α} {G' : Heap α} {K' T'} (I : RInv m G K T) (I' : RInv m' G' K' T') {x : Var} (hx : m'.env x = m.env x)
    (h : ∀ hd, m.env x = some hd → ∀ b, Reach K hd.addr b → K' b = K b ∧ G'.data b = G.data b) : m'.excl.view x = m.excl.view x := by
  cases he : m.env x with
  | none => simp [Machine.view, RMachine.excl, he, hx]
  | some hd =>
    obtain ⟨v, h1, h2⟩ := I.hden he
    obtain ⟨v', h3, h4⟩ := I'.hden (hx.trans he)
    have hc : ∀ b, Reach K hd.addr b → K' b = K b ∧ G'.val b = G.val b := fun b hb => by
      obtain ⟨e1, e2⟩ := h hd he b hb
      exact ⟨e1, by simp only [Heap.val, e2]⟩
    have h5 : HDen G' K' hd v := by
      have hF : Frame G K G' K' (fun b => ¬ Reach K hd.addr b) := by
        intro b hb hn
        have hr : Reach K hd.addr b := by simpa using hn
        obtain ⟨e1, e2⟩ := h hd he b hr
        refine ⟨?_, (hc b hr).1, (hc b hr).2⟩
        have hu' := (I'.hnd x hd (hx.trans he)).used
        -- reachable nodes are in use
        have hr' : Reach K' hd.addr b := (reach_congr fun b hb => (hc b hb).1).mpr hr
        exact I'.inv.reach_used hu' hr'
      exact hden_frame hF I.inv (I.hnd x hd he) h1 (fun b hb => by simpa using hb)
    have h6 := h5.read I'.inv (I'.hnd x hd (hx.trans he))
    have h7 := h3.read I'.inv (I'.hnd x hd (hx.trans he))
    rw [h6] at h7
    simp at h7
    rw [h2, h4, h7]


/-! ### The borrow flags -/

/-- A guard for node `a`. -/
def isGuard (a : Addr) (w : Bool) : Option Ref → Bool
  | some (.guard _ b w') => decide (b = a) && (w' == w)
  | _ => false

theorem isGuard_iff {a : Addr} {w : Bool} {o : Option Ref} : isGuard a w o = true ↔ ∃ k, o = some (.guard k a w) := by
  constructor
  · intro h
    unfold isGuard at h
    split at h
    · rename_i k b w'
      simp at h
      exact ⟨k, by rw [h.1, h.2]⟩
    · simp at h
  · rintro ⟨k, rfl⟩; simp [isGuard]

/-- The number of guards of a kind for node `a`. -/
def gcount (refs : Var → Option Ref) (n : Nat) (a : Addr) (w : Bool) : Nat := (List.range n).countP fun g => isGuard a w (refs g)

/-- What the flag says. -/
def Flag (b : Int) (s w : Nat) : Prop := (w = 0 ∧ b = s) ∨ (w = 1 ∧ s = 0 ∧ b = -1)

/-- The flag of every node says which guards there are. -/
def GInv (m : RMachine α) : Prop := ∀ a, m.heap.live a = true → Flag (m.heap.borrow a) (gcount m.refs m.fresh a false) (gcount m.refs m.fresh a true)

theorem gcount_upd {refs : Var → Option Ref} {n : Nat} {k : Var} (hk : k < n) (o : Option Ref) (a : Addr) (w : Bool) :
    gcount (upd refs k o) n a w + (if isGuard a w (refs k) then 1 else 0) = gcount refs n a w + (if isGuard a w o then 1 else 0) := by
  have : ∀ (l : List Nat), l.Nodup → k ∈ l → l.countP (fun j => isGuard a w (upd refs k o j)) + (if isGuard a w (refs k) then 1 else 0) =
      l.countP (fun j => isGuard a w (refs j)) + (if isGuard a w o then 1 else 0) := by
    intro l
    induction l with
    | nil => intro _ h; simp at h
    | cons b l ih =>
      intro nd h
      have nd' := List.nodup_cons.mp nd
      simp only [List.countP_cons]
      rcases List.mem_cons.mp h with e | h
      · subst e
        have : l.countP (fun j => isGuard a w (upd refs k o j)) = l.countP (fun j => isGuard a w (refs j)) := by
          apply List.countP_congr
          intro x hx
          have : x ≠ k := fun e => nd'.1 (e ▸ hx)
          rw [upd_of_ne _ _ this]
        rw [this]; simp only [upd_self]; omega
      · have hb : b ≠ k := fun e => nd'.1 (e ▸ h)
        rw [upd_of_ne _ _ hb]
        have := ih nd'.2 h
        omega
  exact this _ List.nodup_range (List.mem_range.mpr hk)

theorem gcount_ext {refs : Var → Option Ref} {n n' : Nat} (hn : n ≤ n') (h : ∀ k, n ≤ k → refs k = none) : gcount refs n' = gcount refs n := by
  funext a w
  obtain ⟨d, rfl⟩ := Nat.le.dest hn
  simp only [gcount, List.range_add, List.countP_append, List.countP_map]
  rw [Nat.add_eq_left, List.countP_eq_zero]
  intro k _
  simp [h (n + k) (Nat.le_add_right _ _), isGuard]

theorem gcount_bind {refs : Var → Option Ref} {n : Nat} (h : ∀ k, n ≤ k → refs k = none) (o : Option Ref) (a : Addr) (w : Bool) :
    gcount (upd refs n o) (n + 1) a w = gcount refs n a w + (if isGuard a w o then 1 else 0) := by
  have h1 := gcount_upd (refs := refs) (Nat.lt_succ_self n) o a w
  rw [gcount_ext (Nat.le_succ n) h, h n (Nat.le_refl _)] at h1
  simpa [isGuard] using h1

theorem gcount_pos {refs : Var → Option Ref} {n : Nat} {a : Addr} {w : Bool} : gcount refs n a w ≠ 0 ↔ ∃ g, g < n ∧ ∃ k, refs g = some (.guard k a w) := by
  rw [← Nat.pos_iff_ne_zero, gcount, List.countP_pos_iff]
  simp [isGuard_iff]

theorem RInv.refs_lt (I : RInv m G K T) {g : Var} {r : Ref} (h : m.refs g = some r) : g < m.fresh := by
  by_contra hk
  rw [(I.fr g (Nat.le_of_not_lt hk)).2] at h; simp at h

theorem RInv.guarded_iff (I : RInv m G K T) {a : Addr} {w : Bool} : gcount m.refs m.fresh a w ≠ 0 ↔ m.Guarded a w := by
  rw [gcount_pos]
  constructor
  · rintro ⟨g, -, k, h⟩; exact ⟨g, k, h⟩
  · rintro ⟨g, k, h⟩; exact ⟨g, I.refs_lt h, k, h⟩

theorem RInv.used' (I : RInv m G K T) {a : Addr} : m.heap.Used a ↔ G.Used a := by rw [I.heap]; exact Iff.rfl

theorem RInv.borrow' (I : RInv m G K T) : m.heap.borrow = G.borrow := by rw [I.heap]; rfl

/-- Nobody has a guard. -/
theorem GInv.free (B : GInv m) (I : RInv m G K T) {a : Addr} (hu : G.Used a) (hg : ∀ w, ¬ m.Guarded a w) : G.borrow a = 0 := by
  have h := B a (I.used'.mpr hu).1
  rw [I.borrow'] at h
  have h1 : gcount m.refs m.fresh a false = 0 := by by_contra h; exact hg _ (I.guarded_iff.mp h)
  have h2 : gcount m.refs m.fresh a true = 0 := by by_contra h; exact hg _ (I.guarded_iff.mp h)
  simp only [h1, h2, Flag] at h
  omega

/-- No exclusive guard. -/
theorem GInv.shared (B : GInv m) (I : RInv m G K T) {a : Addr} (hu : G.Used a) (hg : ¬ m.Guarded a true) : 0 ≤ G.borrow a := by
  have h := B a (I.used'.mpr hu).1
  rw [I.borrow'] at h
  have h2 : gcount m.refs m.fresh a true = 0 := by by_contra h; exact hg (I.guarded_iff.mp h)
  simp only [h2, Flag] at h
  omega

theorem GInv.conflict (B : GInv m) (I : RInv m G K T) {a : Addr} {w : Bool} (hu : G.Used a) (hg : m.Guarded a w) : G.borrow a ≠ 0 := by
  have h := B a (I.used'.mpr hu).1
  rw [I.borrow'] at h
  have h2 := I.guarded_iff.mpr hg
  simp only [Flag] at h
  cases w <;> omega

theorem GInv.conflictS (B : GInv m) (I : RInv m G K T) {a : Addr} (hu : G.Used a) (hg : m.Guarded a true) : ¬ 0 ≤ G.borrow a := by
  have h := B a (I.used'.mpr hu).1
  rw [I.borrow'] at h
  have h2 := I.guarded_iff.mpr hg
  simp only [Flag] at h
  omega

/-- The state changes, the guards do not. -/
theorem GInv.step {m' : RMachine α} (B : GInv m) (hr : ∀ a w, gcount m'.refs m'.fresh a w = gcount m.refs m.fresh a w)
    (h : ∀ a, m'.heap.live a = true → (m.heap.live a = true ∧ m'.heap.borrow a = m.heap.borrow a) ∨ (m'.heap.borrow a = 0 ∧ ∀ w, gcount m.refs m.fresh a w = 0)) : GInv m' := by
  intro a ha
  rw [hr, hr]
  rcases h a ha with ⟨h1, h2⟩ | ⟨h1, h2⟩
  · rw [h2]; exact B a h1
  · rw [h1, h2, h2]; left; simp

/-- Guards are for existing nodes. -/
theorem RInv.gcount_zero (I : RInv m G K T) {a : Addr} (ha : ¬ G.Used a) (w : Bool) : gcount m.refs m.fresh a w = 0 := by
  by_contra h
  obtain ⟨g, k, hg⟩ := I.guarded_iff.mp h
  exact ha (I.tgt k a (I.guards g k a w hg)).2.1

/-- Exclusive calls keep the flags. -/
theorem GInv.mono (B : GInv m) (I : RInv m G K T) {G' : Heap α} {e : Addr → Nat} {env' : Var → Option Handle} {fr' : Nat} (hM : Mono G G')
    (hS : SInv G') (hf : m.fresh ≤ fr') : GInv ⟨bumpE e G', env', m.refs, fr'⟩ := by
  refine B.step (m' := ⟨bumpE e G', env', m.refs, fr'⟩) (fun a w => by simp only [gcount_ext hf fun k hk => (I.fr k hk).2]) ?_
  intro a ha
  have ha' : G'.live a = true := ha
  by_cases hlt : a < G.nextAddr
  · exact .inl ⟨by rw [I.heap]; exact hM.live a hlt ha', by rw [I.borrow']; exact hM.borrow a hlt⟩
  · exact .inr ⟨hM.newB a (Nat.le_of_not_lt hlt) (hS.liveB a ha'), fun w => I.gcount_zero (fun h => hlt (I.st.liveB a h.1)) w⟩

end
end Trees
