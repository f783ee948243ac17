import Verif.Proof.SharedFacts
/-
The state of the machine and the state of the specification `Spec/SharedStore.lean`.
-/
namespace Trees
set_option linter.unusedSimpArgs false
set_option linter.unusedVariables false
variable {α : Type}
open RTree

/-- The same kind of value; `φ i` is the node with identity `i`. -/
def RefRel (φ : Nat → Addr) : Option Ref → Option SRef → Prop
  | none, none => True
  | some (.rc _), some (.rc _) => True
  | some (.weak r), some (.weak i) => r = .scattered (φ i)
  | some (.guard k _ w), some (.guard k' w') => k = k' ∧ w = w'
  | some (.iter it), some (.iter c n) => it.len = n ∧ (n ≠ 0 → it.curr = c.map φ)
  | _, _ => False

/-- `s` describes `m`. -/
structure SSim (φ : Nat → Addr) (m : RMachine α) (s : SStore α) : Prop where
  reach : SReachable m
  excl : s.excl = m.excl.store
  nd : ((idsL s.roots).map φ).Nodup
  refs : ∀ k, RefRel φ (m.refs k) (s.refs k)
  rc : ∀ k i, s.refs k = some (.rc i) → ∃ u ∈ subsL s.roots, u.data.1 = i ∧ m.look k = some (relab φ u)
  held : ∀ t ∈ s.roots, ∃ k, s.refs k = some (.rc t.data.1)
  oldR : ∀ i ∈ idsL s.roots, i < s.next
  oldW : ∀ k i, s.refs k = some (.weak i) → i < s.next
  oldI : ∀ k c n, s.refs k = some (.iter (some c) n) → c < s.next
  gone : ∀ k i, s.refs k = some (.weak i) → i ∉ idsL s.roots → ∀ j ∈ idsL s.roots, φ j ≠ φ i

theorem ssim_empty : SSim (fun _ => 0) (RMachine.empty : RMachine α) SStore.empty :=
  ⟨.init, rfl, by simp [SStore.empty], fun k => trivial, fun k i h => by simp [SStore.empty] at h, fun t h => by simp [SStore.empty] at h,
    fun i h => by simp [SStore.empty] at h, fun k i h => by simp [SStore.empty] at h, fun k c n h => by simp [SStore.empty] at h,
    fun k i h => by simp [SStore.empty] at h⟩

section
variable {φ : Nat → Addr} {m : RMachine α} {s : SStore α} (S : SSim φ m s)
include S

namespace SSim

theorem idsNodup : (idsL s.roots).Nodup := List.Nodup.of_map _ S.nd
theorem inj {i j : Nat} (hi : i ∈ idsL s.roots) (hj : j ∈ idsL s.roots) (h : φ i = φ j) : i = j := List.inj_on_of_nodup_map S.nd hi hj h

/-! ### Variables -/

theorem fresh : s.excl.fresh = m.fresh := by rw [S.excl]; rfl

theorem ref_rc {k : Var} {r : RcRef} (h : m.refs k = some (.rc r)) : ∃ i, s.refs k = some (.rc i) := by
  have := S.refs k
  rw [h] at this
  cases e : s.refs k with
  | none => rw [e] at this; exact this.elim
  | some q => rw [e] at this; cases q <;> first | exact ⟨_, rfl⟩ | exact this.elim

theorem mref_rc {k : Var} {i : Nat} (h : s.refs k = some (.rc i)) : ∃ r, m.refs k = some (.rc r) := by
  have := S.refs k
  rw [h] at this
  cases e : m.refs k with
  | none => rw [e] at this; exact this.elim
  | some q => rw [e] at this; cases q <;> first | exact ⟨_, rfl⟩ | exact this.elim

theorem mref_weak {k : Var} {i : Nat} (h : s.refs k = some (.weak i)) : m.refs k = some (.weak (.scattered (φ i))) := by
  have := S.refs k
  rw [h] at this
  cases e : m.refs k with
  | none => rw [e] at this; exact this.elim
  | some q => rw [e] at this; cases q <;> first | exact this.elim | (simp only [RefRel] at this; rw [this])

theorem mref_guard {g k : Var} {w : Bool} (h : s.refs g = some (.guard k w)) : ∃ a, m.refs g = some (.guard k a w) := by
  have := S.refs g
  rw [h] at this
  cases e : m.refs g with
  | none => rw [e] at this; exact this.elim
  | some q => rw [e] at this; cases q <;> first | exact this.elim | (simp only [RefRel] at this; rw [this.1, this.2]; exact ⟨_, rfl⟩)

theorem ref_guard {g k : Var} {a : Addr} {w : Bool} (h : m.refs g = some (.guard k a w)) : s.refs g = some (.guard k w) := by
  have := S.refs g
  rw [h] at this
  cases e : s.refs g with
  | none => rw [e] at this; exact this.elim
  | some q => rw [e] at this; cases q <;> first | exact this.elim | (simp only [RefRel] at this; rw [this.1, this.2])

theorem mref_iter {i : Var} {c : Option Nat} {n : Nat} (h : s.refs i = some (.iter c n)) :
    ∃ it, m.refs i = some (.iter it) ∧ it.len = n ∧ (n ≠ 0 → it.curr = c.map φ) := by
  have := S.refs i
  rw [h] at this
  cases e : m.refs i with
  | none => rw [e] at this; exact this.elim
  | some q => rw [e] at this; cases q <;> first | exact this.elim | exact ⟨_, rfl, this⟩

theorem ref_none {k : Var} (h : s.refs k = none) : m.refs k = none := by
  have := S.refs k
  rw [h] at this
  cases e : m.refs k with
  | none => rfl
  | some q => rw [e] at this; cases q <;> exact this.elim

theorem ref_lt {k : Var} {r : SRef} (h : s.refs k = some r) : k < s.excl.fresh := by
  rw [S.fresh]
  cases e : m.refs k with
  | some q => exact si_refs_lt S.reach.si e
  | none =>
    have := S.refs k
    rw [h, e] at this; exact this.elim

theorem ref_fresh : s.refs m.fresh = none := by
  cases h : s.refs m.fresh with
  | none => rfl
  | some r => have := S.ref_lt h; rw [S.fresh] at this; exact absurd this (Nat.lt_irrefl _)

theorem anyVar_iff {p : Var → Bool} (hp : ∀ k, p k = true → s.refs k ≠ none) : s.anyVar p = true ↔ ∃ k, p k = true := by
  simp only [SStore.anyVar, List.any_eq_true, List.mem_range]
  constructor
  · rintro ⟨k, -, h⟩; exact ⟨k, h⟩
  · rintro ⟨k, h⟩
    obtain ⟨r, hr⟩ := Option.ne_none_iff_exists'.mp (hp k h)
    exact ⟨k, S.ref_lt hr, h⟩

/-! ### Nodes -/

theorem node_eq {u : RTree (Nat × α)} (hu : u ∈ subsL s.roots) : s.node? u.data.1 = some u := by
  simp only [SStore.node?]
  cases h : (subsL s.roots).find? (fun v => decide (v.data.1 = u.data.1)) with
  | none =>
    have := List.find?_eq_none.mp h u hu
    simp at this
  | some v =>
    have h1 := List.mem_of_find?_eq_some h
    have h2 := List.find?_some h
    simp only [decide_eq_true_eq] at h2
    rw [sub_unique S.idsNodup h1 hu h2]

omit S in
theorem node_mem {i : Nat} {u : RTree (Nat × α)} (h : s.node? i = some u) : u ∈ subsL s.roots ∧ u.data.1 = i := by
  simp only [SStore.node?] at h
  have h2 := List.find?_some h
  simp only [decide_eq_true_eq] at h2
  exact ⟨List.mem_of_find?_eq_some h, h2⟩

omit S in
theorem node_none {i : Nat} : s.node? i = none ↔ i ∉ idsL s.roots := by
  simp only [SStore.node?, List.find?_eq_none, decide_eq_true_eq, mem_idsL_iff]
  constructor
  · rintro h ⟨u, hu, e⟩; exact h u hu e
  · intro h u hu e; exact h ⟨u, hu, e⟩

theorem handle {k : Var} {i : Nat} (h : s.refs k = some (.rc i)) : ∃ u, s.node? i = some u ∧ u ∈ subsL s.roots ∧ u.data.1 = i ∧ m.look k = some (relab φ u) := by
  obtain ⟨u, h1, h2, h3⟩ := S.rc k i h
  subst h2
  exact ⟨u, S.node_eq h1, h1, rfl, h3⟩

theorem look_rc {k : Var} {t : RTree (Addr × α)} (h : m.look k = some t) : ∃ u ∈ subsL s.roots, s.refs k = some (.rc u.data.1) ∧ t = relab φ u := by
  obtain ⟨r, hr⟩ := look_ref h
  obtain ⟨i, hi⟩ := S.ref_rc hr
  obtain ⟨u, h1, h2, h3⟩ := S.rc k i hi
  rw [h] at h3; cases h3
  exact ⟨u, h1, by rw [h2]; exact hi, rfl⟩

theorem shown {a : Addr} : m.Shown a ↔ ∃ i ∈ idsL s.roots, φ i = a := by
  constructor
  · rintro ⟨j, t, h1, h2⟩
    obtain ⟨u, h3, -, rfl⟩ := S.look_rc h1
    rw [relab_ids, List.mem_map] at h2
    obtain ⟨x, h4, rfl⟩ := h2
    exact ⟨x, subsL_ids h3 x h4, rfl⟩
  · rintro ⟨i, hi, rfl⟩
    obtain ⟨t, ht, hit⟩ := mem_idsL.mp hi
    obtain ⟨k, hk⟩ := S.held t ht
    obtain ⟨u, h1, h2, h3⟩ := S.rc k _ hk
    have : u = t := sub_unique S.idsNodup h1 (root_mem_subsL ht) h2
    subst this
    exact ⟨k, _, h3, by rw [relab_ids]; exact List.mem_map_of_mem hit⟩

theorem root_iff {i : Nat} : s.isRoot i = true ↔ ∃ t ∈ s.roots, t.data.1 = i := by simp [SStore.isRoot]

theorem hasParent {u : RTree (Nat × α)} (hu : u ∈ subsL s.roots) : m.HasParent (φ u.data.1) ↔ s.isRoot u.data.1 = false := by
  rw [← Bool.not_eq_true, S.root_iff]
  constructor
  · rintro ⟨j, t, h1, h2⟩ ⟨r, hr, e⟩
    obtain ⟨v, h3, -, rfl⟩ := S.look_rc h1
    have h4 : φ u.data.1 ∈ (idsL v.kids).map φ := by rw [← relabL_idsL, ← relab_kids]; exact h2
    obtain ⟨x, h5, h6⟩ := List.mem_map.mp h4
    have hxk : x ∈ v.ids := by rw [ids_kids]; exact List.mem_cons_of_mem _ h5
    have hx := S.inj (subsL_ids h3 x hxk) (mem_idsL_iff.mpr ⟨u, hu, rfl⟩) h6
    subst hx
    obtain ⟨w, h7, h8⟩ := mem_idsL_iff.mp h5
    have hvs : ∀ {q}, q ∈ subsL v.kids → q ∈ subsL s.roots := fun hq => subsL_trans h3 (by rw [subs_eq]; exact List.mem_cons_of_mem _ hq)
    rcases root_or_kid h7 with h9 | ⟨p, h9, h10⟩
    · exact root_no_parent S.idsNodup hr h3 h9 (by rw [e, h8])
    · exact root_no_parent S.idsNodup hr (hvs h9) h10 (by rw [e, h8])
  · intro h
    rcases root_or_kid hu with h1 | ⟨p, h1, h2⟩
    · exact absurd ⟨u, h1, rfl⟩ h
    · obtain ⟨t, ht, hp⟩ := mem_subsL.mp h1
      obtain ⟨k, hk⟩ := S.held t ht
      obtain ⟨v, h3, h4, h5⟩ := S.rc k _ hk
      have : v = t := sub_unique S.idsNodup h3 (root_mem_subsL ht) h4
      subst this
      refine ⟨k, _, h5, ?_⟩
      show φ u.data.1 ∈ idsL (relab φ v).kids
      rw [relab_kids, relabL_idsL]
      refine List.mem_map_of_mem (mem_idsL_iff.mpr ⟨u, ?_, rfl⟩)
      rw [subs_eq] at hp
      rcases List.mem_cons.mp hp with rfl | hp
      · exact root_mem_subsL h2
      · exact kid_mem hp h2

theorem not_hasParent {u : RTree (Nat × α)} (hu : u ∈ subsL s.roots) : ¬ m.HasParent (φ u.data.1) ↔ s.isRoot u.data.1 = true := by
  rw [S.hasParent hu]; simp

theorem parent_eq {p c : RTree (Nat × α)} (hp : p ∈ subsL s.roots) (hc : c ∈ p.kids) : s.parent? c.data.1 = some p := by
  simp only [SStore.parent?]
  cases h : (subsL s.roots).find? (fun u => u.kids.any fun d => decide (d.data.1 = c.data.1)) with
  | none =>
    have := List.find?_eq_none.mp h p hp
    simp only [List.any_eq_true, decide_eq_true_eq, not_exists, not_and] at this
    exact absurd rfl (this c hc)
  | some v =>
    have h1 := List.mem_of_find?_eq_some h
    have h2 := List.find?_some h
    simp only [List.any_eq_true, decide_eq_true_eq] at h2
    obtain ⟨d, h3, h4⟩ := h2
    rw [parent_unique S.idsNodup h1 hp h3 hc h4]

theorem parent_none {t : RTree (Nat × α)} (ht : t ∈ s.roots) : s.parent? t.data.1 = none := by
  simp only [SStore.parent?, List.find?_eq_none, List.any_eq_true, decide_eq_true_eq, not_exists, not_and]
  intro p hp c hc e
  exact root_no_parent S.idsNodup ht hp hc e.symm

/-! ### Guards -/

theorem guarded_iff {u : RTree (Nat × α)} (hu : u ∈ subsL s.roots) {w : Bool} : s.guarded u.data.1 w = true ↔ m.Guarded (φ u.data.1) w := by
  rw [SStore.guarded, S.anyVar_iff (fun k hk e => by rw [e] at hk; simp at hk)]
  constructor
  · rintro ⟨g, hg⟩
    split at hg
    · rename_i k w' e
      simp only [Bool.and_eq_true, decide_eq_true_eq] at hg
      obtain ⟨rfl, hk⟩ := hg
      obtain ⟨a, ha⟩ := S.mref_guard e
      obtain ⟨t, h1, h2⟩ := si_guard S.reach.si ha
      obtain ⟨v, h3, h4, h5⟩ := S.rc k _ hk
      rw [h5] at h1; cases h1
      refine ⟨g, k, ?_⟩
      rw [relab_data] at h2
      rw [ha, ← h2, h4]
    · simp at hg
  · rintro ⟨g, k, h⟩
    obtain ⟨t, h1, h2⟩ := si_guard S.reach.si h
    obtain ⟨v, h3, h4, rfl⟩ := S.look_rc h1
    rw [relab_data] at h2
    have := S.inj (mem_idsL_iff.mpr ⟨v, h3, rfl⟩) (mem_idsL_iff.mpr ⟨u, hu, rfl⟩) h2
    refine ⟨g, ?_⟩
    rw [S.ref_guard h]
    simp only [Bool.and_eq_true, decide_eq_true_eq, true_and]
    rw [h4, this]

theorem not_guarded {u : RTree (Nat × α)} (hu : u ∈ subsL s.roots) {w : Bool} : s.guarded u.data.1 w = false ↔ ¬ m.Guarded (φ u.data.1) w := by
  rw [← S.guarded_iff hu]; simp

theorem busy_eq (k : Var) : s.busy k = m.guarded k := by
  simp only [SStore.busy, SStore.anyVar, RMachine.guarded, S.fresh]
  congr 1
  funext g
  have := S.refs g
  cases h1 : m.refs g with
  | none =>
    rw [h1] at this
    cases h2 : s.refs g with
    | none => rfl
    | some q => rw [h2] at this; cases q <;> exact this.elim
  | some r =>
    rw [h1] at this
    cases h2 : s.refs g with
    | none => rw [h2] at this; cases r <;> exact this.elim
    | some q =>
      rw [h2] at this
      cases r <;> cases q <;> first | exact this.elim | rfl | skip
      simp only [RefRel] at this
      simp only [this.1]
      rfl

theorem heldElse_iff {k : Var} {i : Nat} : s.heldElse k i = true ↔ ∃ j, j ≠ k ∧ s.refs j = some (.rc i) := by
  rw [SStore.heldElse, S.anyVar_iff (fun j hj => by simp only [Bool.and_eq_true, decide_eq_true_eq] at hj; rw [hj.2]; simp)]
  simp

theorem heldElse_eq {k : Var} {i : Nat} (hi : i ∈ idsL s.roots) : m.heldElse k (φ i) = s.heldElse k i := by
  rw [Bool.eq_iff_iff, S.heldElse_iff]
  simp only [RMachine.heldElse, decide_eq_true_eq]
  constructor
  · rintro ⟨j, hj, h⟩
    simp only [RMachine.nodeOf, Option.map_eq_some_iff] at h
    obtain ⟨t, h1, h2⟩ := h
    obtain ⟨v, h3, h4, rfl⟩ := S.look_rc h1
    rw [relab_data] at h2
    have := S.inj (mem_idsL_iff.mpr ⟨v, h3, rfl⟩) hi h2
    exact ⟨j, hj, by rw [h4, this]⟩
  · rintro ⟨j, hj, h⟩
    obtain ⟨v, h3, h4, h5⟩ := S.rc j _ h
    exact ⟨j, hj, by simp only [RMachine.nodeOf, h5, Option.map_some, relab_data, h4]⟩

/-- A handle that shows a node of a known tree. -/
theorem look_sub {m' : RMachine α} (hr : SReachable m') {i : Nat} (hi : i ∈ idsL s.roots) {t : RTree (Addr × α)} {f : Var} (hl : ∀ j, j ≠ m.fresh → m'.look j = m.look j)
    (ht : m'.look f = some t) (hd : t.data.1 = φ i) : ∃ u ∈ subsL s.roots, u.data.1 = i ∧ t = relab φ u := by
  obtain ⟨j, t0, h1, h2⟩ := S.shown.mpr ⟨i, hi, rfl⟩
  have hj : j ≠ m.fresh := by intro e; subst e; rw [look_fresh S.reach.si] at h1; simp at h1
  have h3 := c37_same_tree hr (by rw [hl j hj]; exact h1) ht (by rw [hd]; exact h2)
  obtain ⟨u0, h4, -, rfl⟩ := S.look_rc h1
  rw [relab_subs, List.mem_map] at h3
  obtain ⟨v, h5, rfl⟩ := h3
  have h6 := subsL_trans h4 h5
  rw [relab_data] at hd
  exact ⟨v, h6, S.inj (mem_idsL_iff.mpr ⟨v, h6, rfl⟩) hi hd, rfl⟩

end SSim
end
end Trees
