import Verif.Proof.SharedStep
/-
Every call: machine and specification do the same.
-/
namespace Trees
set_option linter.unusedSimpArgs false
set_option linter.unusedVariables false
variable {α : Type}
open RTree

section
variable {φ : Nat → Addr} {m : RMachine α} {s : SStore α} (S : SSim φ m s)
include S

namespace SSim

theorem exclM (op : Op α) : Match (rstep m (.excl op)) (sstep s (.excl op)) := by
  simp only [sstep]
  rw [S.excl]
  rcases shared_exclusive S.reach op with ⟨m', o, e, h1, h2, h3, h4⟩ | ⟨m', e, h1, h2, h3, h4⟩ | ⟨e, h1⟩
  · have := S.exclOnly (op := .excl op) trivial (.inl ⟨o, e⟩) h3 h4 rfl
    rw [e, h1]; exact ⟨rfl, φ, this⟩
  · have := S.exclOnly (op := .excl op) trivial (.inr e) h3 h4 rfl
    rw [e, h1]; exact ⟨φ, this⟩
  · rw [e, h1]; trivial

theorem fromTreeM (x : Var) : Match (rstep m (.fromTree x)) (sstep s (.fromTree x)) := by
  rcases S.treeCases x with ⟨a, t, h1, h2, h3⟩ | ⟨h1, h2⟩
  · obtain ⟨m', e, -, -, -, h4, h5, h6⟩ := si_fromTree S.reach.si h2
    have := S.fromTree (op := .fromTree x) trivial (.inl ⟨_, e⟩) h2 h5 h4 h6
    simp only [sstep, h3]
    rw [e]
    exact ⟨by rw [S.fresh], _, this⟩
  · have e1 : rstep m (.fromTree x) = .rejected := by
      simp only [rstep, RMachine.takeTree]
    have e2 : sstep s (.fromTree x) = .rejected := by
      simp only [sstep]
    rw [e1, e2]; trivial

/-- A new handle. -/
theorem newM {op : ROp α} (hsafe : Safe m op) {m' : RMachine α} (e : rstep m op = .ok m' (.var m.fresh)) (A : Adds m m') {u : RTree (Nat × α)} (hu : u ∈ subsL s.roots)
    (hl : m'.look m.fresh = some (relab φ u)) : Match (rstep m op) (s.retRc (some u.data.1)) := by
  rw [e]
  refine ⟨by rw [S.fresh], φ, S.bind hsafe (.inl ⟨_, e⟩) A.fresh A.refs A.looks A.vars A.log ?_ ?_ (by simp) (by simp)⟩
  · obtain ⟨r, hr⟩ := look_ref hl
    rw [hr]; trivial
  · intro i hi
    simp only [SRef.rc.injEq] at hi
    subst hi
    exact ⟨u, hu, rfl, hl⟩

theorem selfM {op : ROp α} {o : Out α} (e : rstep m op = .ok m o) : Match (rstep m op) (.ok s o) := by rw [e]; exact ⟨rfl, φ, S⟩

theorem cloneM (k : Var) (hb : m.Scattered k) : Match (rstep m (.clone k)) (sstep s (.clone k)) := by
  refine S.onRcM (fun h => onRc_none S.reach.si h) fun u h1 h2 h3 => ?_
  obtain ⟨r, hr⟩ := look_ref h3
  obtain ⟨a, rfl⟩ := scattered_of (r := r) fun v i h => hb v i (by rw [hr, h])
  obtain ⟨m', e, A, h4⟩ := si_clone S.reach.si h3 hr
  exact S.newM (op := .clone k) hb e A h1 h4

theorem downgradeM (k : Var) (hb : m.Scattered k) : Match (rstep m (.downgrade k)) (sstep s (.downgrade k)) := by
  refine S.onRcM (fun h => onRc_none S.reach.si h) fun u h1 h2 h3 => ?_
  obtain ⟨r, hr⟩ := look_ref h3
  obtain ⟨a, rfl⟩ := scattered_of (r := r) fun v i h => hb v i (by rw [hr, h])
  obtain ⟨m', e, A, h4⟩ := si_downgrade S.reach.si h3 hr
  rw [e]
  refine ⟨by rw [S.fresh], φ, S.bind (op := .downgrade k) hb (.inl ⟨_, e⟩) A.fresh A.refs A.looks A.vars A.log ?_ (by simp) ?_ (by simp)⟩
  · rw [h4, relab_data]; rfl
  · intro i hi
    simp only [SRef.weak.injEq] at hi
    subst hi
    exact mem_idsL_iff.mpr ⟨u, h1, rfl⟩

theorem dropM (k : Var) : Match (rstep m (.drop k)) (sstep s (.drop k)) := by
  have hlose : (∀ i, s.refs k ≠ some (.rc i)) → (∃ m', rstep m (.drop k) = .ok m' .unit ∧ Loses m m' k) → Match (rstep m (.drop k)) (.ok (s.setRef k none) .unit) := by
    rintro h ⟨m', e, L⟩
    rw [e]
    exact ⟨rfl, φ, S.lose (op := .drop k) trivial (.inl ⟨_, e⟩) h L.refs (fun j _ => L.looks j) L.store⟩
  cases h : s.refs k with
  | none =>
    simp only [sstep, h, rstep, S.ref_none h]; trivial
  | some r =>
    cases r with
    | rc i =>
      obtain ⟨r, hr⟩ := S.mref_rc h
      obtain ⟨u, h1, h2, h3, h4⟩ := S.handle h
      subst h3
      simp only [sstep, h, S.busy_eq]
      by_cases hg : m.guarded k = true
      · rw [if_pos hg]
        simp only [rstep, hr, hg, if_true]; trivial
      · rw [if_neg hg]
        obtain ⟨m', e, -, h5, h6, -, h7⟩ := c34_drop S.reach h4 (by simpa using hg)
        rw [e]
        simp only [SStore.onRc, h, h1]
        rw [relab_data] at h7
        exact ⟨rfl, φ, S.release (op := .drop k) trivial (.inl ⟨_, e⟩) h2 h h5 h6 h7⟩
    | weak i =>
      simp only [sstep, h]
      exact hlose (by rw [h]; simp) (si_dropWeak S.reach.si (S.mref_weak h))
    | guard j w =>
      obtain ⟨a, ha⟩ := S.mref_guard h
      simp only [sstep, h]
      exact hlose (by rw [h]; simp) (si_dropGuard S.reach.si ha)
    | iter c n =>
      obtain ⟨it, hi, -⟩ := S.mref_iter h
      simp only [sstep, h]
      exact hlose (by rw [h]; simp) (si_dropIter S.reach.si hi)

theorem isRootM (k : Var) : Match (rstep m (.isRoot k)) (sstep s (.isRoot k)) := by
  refine S.readsM (fun h => onRc_none S.reach.si h) (fun t h hg => c38_conflict_shared S.reach h hg (fun _ => id) _ (by simp)) fun u h1 h2 h3 hg => ?_
  obtain ⟨b, e, hb⟩ := si_isRoot S.reach.si (look_node h3) hg
  have : b = s.isRoot u.data.1 := by
    rw [relab_data, S.not_hasParent h1] at hb
    rw [Bool.eq_iff_iff]; exact hb
  subst this
  exact S.selfM e

theorem dataM (k : Var) : Match (rstep m (.data k)) (sstep s (.data k)) := by
  refine S.readsM (fun h => onRc_none S.reach.si h) (fun t h hg => c38_conflict_shared S.reach h hg (fun _ => id) _ (by simp)) fun u h1 h2 h3 hg => ?_
  have := si_data S.reach.si h3 hg
  rw [relab_data] at this
  exact S.selfM this

theorem degreeM (k : Var) : Match (rstep m (.degree k)) (sstep s (.degree k)) := by
  refine S.readsM (fun h => onRc_none S.reach.si h) (fun t h hg => c38_conflict_shared S.reach h hg (fun _ => id) _ (by simp)) fun u h1 h2 h3 hg => ?_
  have := si_degree S.reach.si h3 hg
  rw [relab_kids, relabL_eq, List.length_map] at this
  exact S.selfM this

theorem nodeCountM (k : Var) : Match (rstep m (.nodeCount k)) (sstep s (.nodeCount k)) := by
  refine S.readsM (fun h => onRc_none S.reach.si h) (fun t h hg => c38_conflict_shared S.reach h hg (fun _ => id) _ (by simp)) fun u h1 h2 h3 hg => ?_
  have := si_nodeCount S.reach.si h3 hg
  rw [relab_count] at this
  exact S.selfM this

theorem hasNoChildM (k : Var) : Match (rstep m (.hasNoChild k)) (sstep s (.hasNoChild k)) := by
  refine S.readsM (fun h => onRc_none S.reach.si h) (fun t h hg => c38_conflict_shared S.reach h hg (fun _ => id) _ (by simp)) fun u h1 h2 h3 hg => ?_
  have := si_hasNoChild S.reach.si h3 hg
  rw [relab_kids, relabL_eq] at this
  have e : (u.kids.map (relab φ)).isEmpty = u.kids.isEmpty := by cases u.kids <;> rfl
  rw [e] at this
  exact S.selfM this

theorem kid_mem {p c : RTree (Nat × α)} (hp : p ∈ subsL s.roots) (hc : c ∈ p.kids) : c ∈ subsL s.roots :=
  subsL_trans hp (by cases p; exact List.mem_cons_of_mem _ (root_mem_subsL hc))

theorem frontM (k : Var) : Match (rstep m (.front k)) (sstep s (.front k)) := by
  refine S.readsM (fun h => onRc_none S.reach.si h) (fun t h hg => c38_conflict_shared S.reach h hg (fun _ => id) _ (by simp)) fun u h1 h2 h3 hg => ?_
  cases hc : u.kids.head? with
  | none => exact S.selfM (si_front_none S.reach.si h3 hg (by rw [relab_kids, List.head?_eq_none_iff.mp hc]; rfl))
  | some c =>
    obtain ⟨m', e, A, h4⟩ := si_front S.reach.si h3 hg (c := relab φ c) (by rw [relab_kids, relabL_eq, List.head?_map, hc]; rfl)
    exact S.newM (op := .front k) trivial e A (S.kid_mem h1 (List.mem_of_mem_head? hc)) h4

theorem backM (k : Var) : Match (rstep m (.back k)) (sstep s (.back k)) := by
  refine S.readsM (fun h => onRc_none S.reach.si h) (fun t h hg => c38_conflict_shared S.reach h hg (fun _ => id) _ (by simp)) fun u h1 h2 h3 hg => ?_
  cases hc : u.kids.getLast? with
  | none => exact S.selfM (si_back_none S.reach.si h3 hg (by rw [relab_kids, List.getLast?_eq_none_iff.mp hc]; rfl))
  | some c =>
    obtain ⟨m', e, A, h4⟩ := si_back S.reach.si h3 hg (c := relab φ c) (by rw [relab_kids, relabL_eq, List.getLast?_map, hc]; rfl)
    exact S.newM (op := .back k) trivial e A (S.kid_mem h1 (List.mem_of_getLast? hc)) h4

theorem parentM (k : Var) : Match (rstep m (.parent k)) (sstep s (.parent k)) := by
  refine S.readsM (fun h => onRc_none S.reach.si h) (fun t h hg => c38_conflict_shared S.reach h hg (fun _ => id) _ (by simp)) fun u h1 h2 h3 hg => ?_
  by_cases hp : m.HasParent (relab φ u).data.1
  · obtain ⟨m', t, e, A, h4, h5, h6⟩ := si_parent_sub S.reach.si (look_node h3) hg hp
    obtain ⟨i, hi, hφ⟩ := S.shown.mp h6
    obtain ⟨p, hp1, hp2, rfl⟩ := S.look_sub (.ok (op := .parent k) S.reach trivial e) hi A.looks h4 hφ.symm
    rw [relab_kids, relabL_eq, List.map_map, List.mem_map] at h5
    obtain ⟨c, hc, hce⟩ := h5
    simp only [Function.comp, relab_data] at hce
    have hcu : c = u := sub_unique S.idsNodup (S.kid_mem hp1 hc) h1
      (S.inj (mem_idsL_iff.mpr ⟨c, S.kid_mem hp1 hc, rfl⟩) (mem_idsL_iff.mpr ⟨u, h1, rfl⟩) hce)
    subst hcu
    rw [S.parent_eq hp1 hc]
    exact S.newM (op := .parent k) trivial e A hp1 h4
  · have e := si_parent_none S.reach.si (look_node h3) hg hp
    rw [relab_data, S.not_hasParent h1, S.root_iff] at hp
    obtain ⟨t, ht, hte⟩ := hp
    rw [← hte, S.parent_none ht]
    exact S.selfM e

theorem popFrontM (k : Var) : Match (rstep m (.popFront k)) (sstep s (.popFront k)) := by
  have hd : ∀ d : α, ROp.popFront k ∈ [ROp.popFront k, .popBack k, .detach k, .setData k d, .borrowMut k] := by simp
  refine S.writesM (fun h => onRc_none S.reach.si h) (fun t w h hg => c38_conflict_mut S.reach h hg t.data.2 _ (by simp)) fun u h1 h2 h3 hg => ?_
  cases hc : u.kids.head? with
  | none => exact S.selfM (si_popFront_none S.reach.si h3 hg (by rw [relab_kids, List.head?_eq_none_iff.mp hc]; rfl))
  | some c =>
    obtain ⟨m', e, T, h4⟩ := si_popFront S.reach.si h3 hg (c := relab φ c) (by rw [relab_kids, relabL_eq, List.head?_map, hc]; rfl)
    rw [relab_data] at T
    have := S.pop (op := .popFront k) trivial (.inl ⟨_, e⟩) h1 (List.mem_of_mem_head? hc) (F := List.tail) (fun ks => by rw [relabL_eq, relabL_eq, List.map_tail])
      (by cases hk : u.kids with
        | nil => rw [hk] at hc; simp at hc
        | cons a l => rw [hk] at hc; simp at hc; subst hc; exact List.perm_append_comm) T h4
    rw [e]
    exact ⟨by rw [← S.fresh], φ, this⟩

theorem popBackM (k : Var) : Match (rstep m (.popBack k)) (sstep s (.popBack k)) := by
  refine S.writesM (fun h => onRc_none S.reach.si h) (fun t w h hg => c38_conflict_mut S.reach h hg t.data.2 _ (by simp)) fun u h1 h2 h3 hg => ?_
  cases hc : u.kids.getLast? with
  | none => exact S.selfM (si_popBack_none S.reach.si h3 hg (by rw [relab_kids, List.getLast?_eq_none_iff.mp hc]; rfl))
  | some c =>
    obtain ⟨m', e, T, h4⟩ := si_popBack S.reach.si h3 hg (c := relab φ c) (by rw [relab_kids, relabL_eq, List.getLast?_map, hc]; rfl)
    rw [relab_data] at T
    have := S.pop (op := .popBack k) trivial (.inl ⟨_, e⟩) h1 (List.mem_of_getLast? hc) (F := List.dropLast) (fun ks => by rw [relabL_eq, relabL_eq, List.map_dropLast])
      (by obtain ⟨l, hl⟩ := List.getLast?_eq_some_iff.mp hc; rw [hl, List.dropLast_concat]) T h4
    rw [e]
    exact ⟨by rw [← S.fresh], φ, this⟩

theorem detachM (k : Var) : Match (rstep m (.detach k)) (sstep s (.detach k)) := by
  refine S.writesM (fun h => onRc_none S.reach.si h) (fun t w h hg => c38_conflict_mut S.reach h hg t.data.2 _ (by simp)) fun u h1 h2 h3 hg => ?_
  by_cases hroot : s.isRoot u.data.1 = true
  · rw [if_pos hroot, si_detach_root S.reach.si (look_node h3) hg (by rw [relab_data]; exact (S.not_hasParent h1).mpr hroot)]
    exact ⟨φ, S⟩
  · have hroot' : s.isRoot u.data.1 = false := by simpa using hroot
    rw [if_neg hroot]
    obtain ⟨m', e, E⟩ := si_detach S.reach.si (look_node h3) hg (by rw [relab_data]; exact (S.hasParent h1).mpr hroot')
    rw [relab_data] at E
    rw [e]
    exact ⟨rfl, φ, S.detach (op := .detach k) trivial (.inl ⟨_, e⟩) h1 h2 hroot' E⟩

theorem setDataM (k : Var) (d : α) : Match (rstep m (.setData k d)) (sstep s (.setData k d)) := by
  refine S.writesM (fun h => onRc_none S.reach.si h) (fun t w h hg => c38_conflict_mut S.reach h hg d _ (by simp)) fun u h1 h2 h3 hg => ?_
  obtain ⟨m', e, E⟩ := si_setData S.reach.si d h3 hg
  rw [relab_data] at E
  rw [e]
  exact ⟨rfl, φ, S.set (op := .setData k d) trivial (.inl ⟨_, e⟩) h1 E⟩

theorem borrowM (k : Var) : Match (rstep m (.borrow k)) (sstep s (.borrow k)) := by
  refine S.readsM (fun h => onRc_none S.reach.si h) (fun t h hg => c38_conflict_shared S.reach h hg (fun _ => id) _ (by simp)) fun u h1 h2 h3 hg => ?_
  obtain ⟨m', e, A, h4⟩ := si_borrow S.reach.si h3 hg
  rw [e]
  exact ⟨by rw [S.fresh], φ, S.bind (op := .borrow k) trivial (.inl ⟨_, e⟩) A.fresh A.refs A.looks A.vars A.log (by rw [h4]; exact ⟨rfl, rfl⟩) (by simp) (by simp) (by simp)⟩

theorem borrowMutM (k : Var) : Match (rstep m (.borrowMut k)) (sstep s (.borrowMut k)) := by
  refine S.writesM (fun h => onRc_none S.reach.si h) (fun t w h hg => c38_conflict_mut S.reach h hg t.data.2 _ (by simp)) fun u h1 h2 h3 hg => ?_
  obtain ⟨m', e, A, h4⟩ := si_borrowMut S.reach.si h3 hg
  rw [e]
  exact ⟨by rw [S.fresh], φ, S.bind (op := .borrowMut k) trivial (.inl ⟨_, e⟩) A.fresh A.refs A.looks A.vars A.log (by rw [h4]; exact ⟨rfl, rfl⟩) (by simp) (by simp) (by simp)⟩

theorem deepCloneM (k : Var) (f : Nat → α → α) : Match (rstep m (.deepClone k f)) (sstep s (.deepClone k f)) := by
  refine S.readsM (fun h => onRc_none S.reach.si h) (fun t h hg => c38_conflict_shared S.reach h hg f _ (by simp)) fun u h1 h2 h3 hg => ?_
  obtain ⟨m', e, -, -, h4, h5, h6⟩ := si_deepClone S.reach.si f h3 hg
  rw [relab_plain, ← S.excl] at h6
  rw [e]
  exact ⟨by rw [S.fresh], φ, S.exclOnly (op := .deepClone k f) trivial (.inl ⟨_, e⟩) h4 h5 h6.symm⟩

end SSim
end
end Trees
