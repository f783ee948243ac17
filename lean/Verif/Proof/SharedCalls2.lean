import Verif.Proof.SharedCalls
/-
Every call, continued.
-/
namespace Trees
set_option linter.unusedSimpArgs false
set_option linter.unusedVariables false
variable {α : Type}
open RTree

section
variable {φ : Nat → Addr} {m : RMachine α} {s : SStore α} (S : SSim φ m s)
include S

namespace SSim

theorem takeTree_none {y : Var} {f : Addr → Outcome (RMachine α) α} (h : ∀ a, m.env y ≠ some (.tree a)) : m.takeTree y f = .rejected := by
  simp only [RMachine.takeTree]

theorem takeForest_none {y : Var} {f : Addr → Outcome (RMachine α) α} (h : ∀ a, m.env y ≠ some (.forest a)) : m.takeForest y f = .rejected := by
  simp only [RMachine.takeForest]

theorem pushFrontM (k y : Var) : Match (rstep m (.pushFront k y)) (sstep s (.pushFront k y)) := by
  simp only [sstep]
  refine S.withTreeM (op := .pushFront k y) (fun h => S.takeTree_none h) fun a t h1 h2 g1 g2 h3 => ?_
  refine S.consumesM (op := .pushFront k y) trivial h3 (fun h => ?_) (fun b w hb hw => si_pushFront_conflict S.reach.si hb hw h1) fun u hu hk hg => ?_
  · simp only [rstep, RMachine.takeTree, h1]; exact consume_none S.reach.si h
  · obtain ⟨m', e, -, h4, h5, h6⟩ := si_pushFront S.reach.si hk h2 hg
    have := S.insertKids (op := .pushFront k y) trivial (.inl ⟨_, e⟩) hu (ts' := [t]) (by simpa using g1) (by simpa using g2) h5.symm h4 (.inl ⟨rfl, rfl⟩) h6
    rw [← S.excl] at this
    refine .inl ⟨_, rfl, m', extendAt φ s.next (idsL [t]), e, ?_⟩
    have e2 : s.next + countL [t] = s.next + (Val.tree t.plain).count := by simp [countL, Val.count, plain, map_count']
    rw [e2] at this
    exact this

theorem pushBackM (k y : Var) : Match (rstep m (.pushBack k y)) (sstep s (.pushBack k y)) := by
  simp only [sstep]
  refine S.withTreeM (op := .pushBack k y) (fun h => S.takeTree_none h) fun a t h1 h2 g1 g2 h3 => ?_
  refine S.consumesM (op := .pushBack k y) trivial h3 (fun h => ?_) (fun b w hb hw => si_pushBack_conflict S.reach.si hb hw h1) fun u hu hk hg => ?_
  · simp only [rstep, RMachine.takeTree, h1]; exact consume_none S.reach.si h
  · obtain ⟨m', e, -, h4, h5, h6⟩ := si_pushBack S.reach.si hk h2 hg
    have := S.insertKids (op := .pushBack k y) trivial (.inl ⟨_, e⟩) hu (ts' := [t]) (by simpa using g1) (by simpa using g2) h5.symm h4 (.inr ⟨rfl, rfl⟩) h6
    rw [← S.excl] at this
    refine .inl ⟨_, rfl, m', extendAt φ s.next (idsL [t]), e, ?_⟩
    have e2 : s.next + countL [t] = s.next + (Val.tree t.plain).count := by simp [countL, Val.count, plain, map_count']
    rw [e2] at this
    exact this

theorem prependM (k y : Var) : Match (rstep m (.prepend k y)) (sstep s (.prepend k y)) := by
  simp only [sstep]
  refine S.withForestM (op := .prepend k y) (fun h => S.takeForest_none h) fun a t h1 h2 g1 g2 h3 => ?_
  refine S.consumesM (op := .prepend k y) trivial h3 (fun h => ?_) (fun b w hb hw => si_prepend_conflict S.reach.si hb hw h1) fun u hu hk hg => ?_
  · simp only [rstep, RMachine.takeForest, h1]; exact consume_none S.reach.si h
  · obtain ⟨m', e, -, h4, h5, h6⟩ := si_prepend S.reach.si hk h2 hg
    have := S.insertKids (op := .prepend k y) trivial (.inl ⟨_, e⟩) hu (ts' := t) g1 g2 h5.symm h4 (.inl ⟨rfl, rfl⟩) h6
    rw [← S.excl] at this
    refine .inl ⟨_, rfl, m', extendAt φ s.next (idsL t), e, ?_⟩
    have e2 : s.next + countL t = s.next + (Val.forest (mapL Prod.snd t)).count := by simp [Val.count, mapL_count']
    rw [e2] at this
    exact this

theorem appendM (k y : Var) : Match (rstep m (.append k y)) (sstep s (.append k y)) := by
  simp only [sstep]
  refine S.withForestM (op := .append k y) (fun h => S.takeForest_none h) fun a t h1 h2 g1 g2 h3 => ?_
  refine S.consumesM (op := .append k y) trivial h3 (fun h => ?_) (fun b w hb hw => si_append_conflict S.reach.si hb hw h1) fun u hu hk hg => ?_
  · simp only [rstep, RMachine.takeForest, h1]; exact consume_none S.reach.si h
  · obtain ⟨m', e, -, h4, h5, h6⟩ := si_append S.reach.si hk h2 hg
    have := S.insertKids (op := .append k y) trivial (.inl ⟨_, e⟩) hu (ts' := t) g1 g2 h5.symm h4 (.inr ⟨rfl, rfl⟩) h6
    rw [← S.excl] at this
    refine .inl ⟨_, rfl, m', extendAt φ s.next (idsL t), e, ?_⟩
    have e2 : s.next + countL t = s.next + (Val.forest (mapL Prod.snd t)).count := by simp [Val.count, mapL_count']
    rw [e2] at this
    exact this

theorem insertPrevSibM (k y : Var) : Match (rstep m (.insertPrevSib k y)) (sstep s (.insertPrevSib k y)) := by
  simp only [sstep]
  refine S.withTreeM (op := .insertPrevSib k y) (fun h => S.takeTree_none h) fun a t h1 h2 g1 g2 h3 => ?_
  refine S.consumesM (op := .insertPrevSib k y) trivial h3 (fun h => ?_) (fun b w hb hw => si_insertPrevSib_conflict S.reach.si hb hw h1) fun u hu hk hg => ?_
  · simp only [rstep, RMachine.takeTree, h1]; exact consume_none S.reach.si h
  · by_cases hroot : s.isRoot u.data.1 = true
    · rw [if_pos hroot]
      exact .inr ⟨rfl, si_insertPrevSib_root S.reach.si hk hg h1 ((S.not_hasParent hu).mpr hroot)⟩
    · have hroot' : s.isRoot u.data.1 = false := by simpa using hroot
      rw [if_neg hroot]
      obtain ⟨m', e, -, h4, h5, h6⟩ := si_prevSib S.reach.si hk h2 hg ((S.hasParent hu).mpr hroot')
      have := S.insertSib (op := .insertPrevSib k y) trivial (.inl ⟨_, e⟩) hu hroot' g1 g2 h5.symm h4 (.inl ⟨rfl, rfl⟩) h6
      rw [← S.excl] at this
      refine .inl ⟨_, rfl, m', extendAt φ s.next (idsL [t]), e, ?_⟩
      have e2 : s.next + countL [t] = s.next + (Val.tree t.plain).count := by simp [countL, Val.count, plain, map_count']
      rw [e2] at this
      exact this

theorem insertNextSibM (k y : Var) : Match (rstep m (.insertNextSib k y)) (sstep s (.insertNextSib k y)) := by
  simp only [sstep]
  refine S.withTreeM (op := .insertNextSib k y) (fun h => S.takeTree_none h) fun a t h1 h2 g1 g2 h3 => ?_
  refine S.consumesM (op := .insertNextSib k y) trivial h3 (fun h => ?_) (fun b w hb hw => si_insertNextSib_conflict S.reach.si hb hw h1) fun u hu hk hg => ?_
  · simp only [rstep, RMachine.takeTree, h1]; exact consume_none S.reach.si h
  · by_cases hroot : s.isRoot u.data.1 = true
    · rw [if_pos hroot]
      exact .inr ⟨rfl, si_insertNextSib_root S.reach.si hk hg h1 ((S.not_hasParent hu).mpr hroot)⟩
    · have hroot' : s.isRoot u.data.1 = false := by simpa using hroot
      rw [if_neg hroot]
      obtain ⟨m', e, -, h4, h5, h6⟩ := si_nextSib S.reach.si hk h2 hg ((S.hasParent hu).mpr hroot')
      have := S.insertSib (op := .insertNextSib k y) trivial (.inl ⟨_, e⟩) hu hroot' g1 g2 h5.symm h4 (.inr ⟨rfl, rfl⟩) h6
      rw [← S.excl] at this
      refine .inl ⟨_, rfl, m', extendAt φ s.next (idsL [t]), e, ?_⟩
      have e2 : s.next + countL [t] = s.next + (Val.tree t.plain).count := by simp [countL, Val.count, plain, map_count']
      rw [e2] at this
      exact this

/-- The handle a guard has been obtained from. -/
theorem guardOwner {g k : Var} {w : Bool} (h : s.refs g = some (.guard k w)) :
    ∃ a, ∃ u ∈ subsL s.roots, m.refs g = some (.guard k a w) ∧ m.look k = some (relab φ u) ∧ ∀ f, s.onRc k f = f u.data.1 u := by
  obtain ⟨a, ha⟩ := S.mref_guard h
  obtain ⟨t, h1, -⟩ := si_guard S.reach.si ha
  rcases S.cases k with ⟨u, h2, -, h4, h5⟩ | ⟨h2, -⟩
  · exact ⟨a, u, h2, ha, h4, h5⟩
  · rw [h2] at h1; simp at h1

theorem guardReadM (g : Var) : Match (rstep m (.guardRead g)) (sstep s (.guardRead g)) := by
  by_cases h : ∃ k w, s.refs g = some (.guard k w)
  · obtain ⟨k, w, h⟩ := h
    obtain ⟨a, u, h1, h2, h3, h4⟩ := S.guardOwner h
    have e := si_guardRead S.reach.si h2 h3
    rw [relab_data] at e
    simp only [sstep, h]
    rw [h4]
    exact S.selfM e
  · have e1 : sstep s (.guardRead g) = .rejected := by
      simp only [sstep]
      split
      · rename_i k w e; exact absurd ⟨k, w, e⟩ h
      · rfl
    have e2 : rstep m (.guardRead g) = .rejected := by
      simp only [rstep]
      split
      · rename_i k a w e; exact absurd ⟨k, w, S.ref_guard e⟩ h
      · rfl
    rw [e1, e2]; trivial

theorem guardWriteM (g : Var) (d : α) : Match (rstep m (.guardWrite g d)) (sstep s (.guardWrite g d)) := by
  by_cases h : ∃ k, s.refs g = some (.guard k true)
  · obtain ⟨k, h⟩ := h
    obtain ⟨a, u, h1, h2, h3, h4⟩ := S.guardOwner h
    obtain ⟨m', e, E⟩ := si_guardWrite S.reach.si d h2 h3
    rw [relab_data] at E
    simp only [sstep, h]
    rw [h4, e]
    exact ⟨rfl, φ, S.set (op := .guardWrite g d) trivial (.inl ⟨_, e⟩) h1 E⟩
  · have e1 : sstep s (.guardWrite g d) = .rejected := by
      simp only [sstep]
      split
      · rename_i k e; exact absurd ⟨k, e⟩ h
      · rfl
    have e2 : rstep m (.guardWrite g d) = .rejected := by
      simp only [rstep]
      split
      · rename_i k a e; exact absurd ⟨k, S.ref_guard e⟩ h
      · rfl
    rw [e1, e2]; trivial

theorem iterRcM (k : Var) : Match (rstep m (.iterRc k)) (sstep s (.iterRc k)) := by
  refine S.readsM (fun h => onRc_none S.reach.si h) (fun t h hg => c38_conflict_shared S.reach h hg (fun _ => id) _ (by simp)) fun u h1 h2 h3 hg => ?_
  obtain ⟨m', e, A, it, h4, h5, h6⟩ := si_iterRc S.reach.si h3 hg
  rw [e]
  refine ⟨by rw [S.fresh], φ, S.bind (op := .iterRc k) trivial (.inl ⟨_, e⟩) A.fresh A.refs A.looks A.vars A.log ?_ (by simp) (by simp) ?_⟩
  · rw [h4]
    simp only [relab_kids, relabL_eq, List.map_map, List.length_map] at h5 h6
    refine ⟨h5, fun hn => ?_⟩
    rw [h6 (by intro hk; simp at hk; rw [hk] at hn; simp at hn), List.head?_map]
    cases u.kids.head? <;> simp
  · intro c n hi
    simp only [SRef.iter.injEq] at hi
    obtain ⟨hi, -⟩ := hi
    rw [Option.map_eq_some_iff] at hi
    obtain ⟨v, hv, rfl⟩ := hi
    exact S.oldR _ (mem_idsL_iff.mpr ⟨v, S.kid_mem h1 (List.mem_of_mem_head? hv), rfl⟩)

theorem upgradeM (w : Var) : Match (rstep m (.upgrade w)) (sstep s (.upgrade w)) := by
  by_cases h : ∃ i, s.refs w = some (.weak i)
  · obtain ⟨i, h⟩ := h
    have hm := S.mref_weak h
    simp only [sstep, h]
    by_cases hi : i ∈ idsL s.roots
    · have hs : m.Shown (φ i) := S.shown.mpr ⟨i, hi, rfl⟩
      obtain ⟨m', t, e, A, h4, h5⟩ := si_upgrade S.reach.si hm hs
      obtain ⟨u, h6, h7, rfl⟩ := S.look_sub (.ok (op := .upgrade w) S.reach trivial e) hi A.looks h4 h5
      have : (s.node? i).isSome = true := by
        rw [← h7, S.node_eq h6]; rfl
      rw [if_pos this, ← h7]
      exact S.newM (op := .upgrade w) trivial e A h6 h4
    · have hs : ¬ m.Shown (φ i) := by
        intro hs
        obtain ⟨j, hj, e⟩ := S.shown.mp hs
        exact S.gone w i h hi j hj e
      have : ¬ (s.node? i).isSome = true := by
        rw [SSim.node_none.mpr hi]; simp
      rw [if_neg this]
      exact S.selfM (si_upgrade_none S.reach.si hm hs)
  · have e1 : sstep s (.upgrade w) = .rejected := by
      simp only [sstep]
      split
      · rename_i i e; exact absurd ⟨i, e⟩ h
      · rfl
    have e2 : rstep m (.upgrade w) = .rejected := by
      simp only [rstep]
      split
      · rename_i r e
        exfalso
        have := S.refs w
        rw [e] at this
        cases hq : s.refs w with
        | none => rw [hq] at this; exact this
        | some q =>
          rw [hq] at this
          cases q <;> first | exact this | exact h ⟨_, hq⟩
      · rfl
    rw [e1, e2]; trivial

theorem intoTreeM (k : Var) (hb : sstep s (.intoTree k) ≠ .bad) : Match (rstep m (.intoTree k)) (sstep s (.intoTree k)) := by
  refine S.onRcM (fun h => onRc_none S.reach.si h) fun u h1 h2 h3 => ?_
  obtain ⟨r, hr⟩ := look_ref h3
  have hb' : (if s.busy k then Outcome.rejected
      else if !s.isRoot u.data.1 then .panic (s.setRef k none)
      else if s.aliased k u then .bad
      else .ok { s.setRef k none with roots := s.roots.filter (fun u' => u'.data.1 ≠ u.data.1), excl := s.excl.bind (.tree u.plain) } (.var s.excl.fresh)) ≠ (.bad : Outcome (SStore α) α) := by
    rcases S.cases k with ⟨u', g1, g2, g3, g4⟩ | ⟨g1, -⟩
    · rw [h2] at g2
      simp only [Option.some.injEq, SRef.rc.injEq] at g2
      have := sub_unique S.idsNodup h1 g1 g2
      subst this
      have hb2 := hb
      simp only [sstep] at hb2
      rw [g4] at hb2
      exact hb2
    · rw [g1] at h3; simp at h3
  by_cases hg : m.guarded k = true
  · rw [if_pos (by rw [S.busy_eq]; exact hg)]
    simp only [rstep, RMachine.onRc, hr, hg, if_true]; trivial
  have hbz : ¬ s.busy k = true := by rw [S.busy_eq]; exact hg
  have hg' : m.guarded k = false := by simpa using hg
  rw [if_neg hbz] at hb' ⊢
  by_cases hroot : s.isRoot u.data.1 = true
  · rw [if_neg (by simp [hroot])] at hb' ⊢
    have hal : s.aliased k u = false := by
      cases e : s.aliased k u with
      | false => rfl
      | true => rw [e] at hb'; simp at hb'
    rw [if_neg (by rw [hal]; simp)]
    have hal' : ∀ j, ¬ (match s.refs j with
        | some (.rc x) => decide (j ≠ k) && decide (x ∈ u.ids)
        | some (.weak x) => decide (x ∈ u.ids)
        | _ => false) = true := by
      intro j hj
      have : s.aliased k u = true := by
        refine (S.anyVar_iff ?_).mpr ⟨j, hj⟩
        intro j' hj' hn
        rw [hn] at hj'; simp at hj'
      rw [this] at hal; simp at hal
    have hno : ∀ j i, j ≠ k → s.refs j = some (.rc i) → i ∉ u.ids := by
      intro j i hj he hi
      refine hal' j ?_
      rw [he]; simp [hj, hi]
    obtain ⟨t, ht, hte⟩ := S.root_iff.mp hroot
    have := sub_unique S.idsNodup (root_mem_subsL ht) h1 hte
    subst this
    have hsafe2 : ∀ w c, m.refs w = some (.weak (.scattered c)) → c ∉ (relab φ t).ids := by
      intro w c hw hc
      have hrw := S.refs w
      rw [hw] at hrw
      cases hq : s.refs w with
      | none => rw [hq] at hrw; exact hrw
      | some q =>
        rw [hq] at hrw
        cases q with
        | weak i =>
          have : c = φ i := by simpa [RefRel] using hrw
          subst this
          rw [relab_ids, List.mem_map] at hc
          obtain ⟨j, hj, hje⟩ := hc
          have hjr := subsL_ids h1 j hj
          by_cases hi : i ∈ idsL s.roots
          · have := S.inj hjr hi hje
            subst this
            exact hal' w (by rw [hq]; simp [hj])
          · exact S.gone w i hq hi j hjr hje
        | rc i => exact hrw
        | guard k w => exact hrw
        | iter c n => exact hrw
    have hsafe1 : ∀ j b, j ≠ k → m.nodeOf j = some b → b ∉ (relab φ t).ids := by
      intro j b hj hn hb2
      simp only [RMachine.nodeOf, Option.map_eq_some_iff] at hn
      obtain ⟨t', h4, rfl⟩ := hn
      obtain ⟨v, h5, h6, rfl⟩ := S.look_rc h4
      rw [relab_ids, relab_data, List.mem_map] at hb2
      obtain ⟨x, hx, hxe⟩ := hb2
      have := S.inj (subsL_ids h1 x hx) (mem_idsL_iff.mpr ⟨v, h5, rfl⟩) hxe
      subst this
      exact hno j _ hj h6 hx
    have hnp : ¬ m.HasParent (relab φ t).data.1 := by rw [relab_data]; exact (S.not_hasParent h1).mpr hroot
    obtain ⟨m', e, -, -, h5, h6, h7⟩ := c39_into_tree S.reach h3 hg' hnp hsafe1 hsafe2
    rw [relab_plain, ← S.excl] at h7
    rw [e]
    refine ⟨by rw [S.fresh], φ, S.unshare (op := .intoTree k) ?_ (.inl ⟨_, e⟩) ht h2 hno h5 h6 h7.symm⟩
    intro t' ht'
    rw [h3] at ht'; cases ht'
    exact .inr ⟨hsafe1, hsafe2⟩
  · have hroot' : s.isRoot u.data.1 = false := by simpa using hroot
    rw [if_pos (by simp [hroot'])]
    have hp : m.HasParent (relab φ u).data.1 := by rw [relab_data]; exact (S.hasParent h1).mpr hroot'
    obtain ⟨m', e, -, h5, h6, h7⟩ := c39_into_tree_panics S.reach h3 hg' hp
    rw [e]
    have := S.release (op := .intoTree k) (m' := m') (by intro t' ht'; rw [h3] at ht'; cases ht'; exact .inl hp) (.inr e) h1 h2 h5 h6
      (by rw [relab_data] at hp; rw [if_pos hp, h7]; simp [Store.drop])
    simp only [SStore.release, hroot', Bool.false_eq_true, if_false] at this
    exact ⟨φ, this⟩

/-- The next sibling. -/
theorem nextSib_eq {p : RTree (Nat × α)} (hp : p ∈ subsL s.roots) {c : RTree (Nat × α)} (hc : c ∈ p.kids) :
    ∃ l r, (p.kids.map fun c => c.data.1) = l ++ c.data.1 :: r ∧ s.nextSib c.data.1 = r.head? := by
  obtain ⟨A, B, hAB⟩ := List.append_of_mem hc
  refine ⟨A.map fun c => c.data.1, B.map fun c => c.data.1, by rw [hAB]; simp, ?_⟩
  have hnd := (List.nodup_append.mp (kidIds_nodup S.idsNodup)).2.1
  have hno : ∀ x ∈ A, x.data.1 ≠ c.data.1 := by
    intro x hx e
    have h1 := subsL_nodup S.idsNodup hp
    rw [ids_kids, hAB, idsL_append, idsL_cons, List.nodup_cons, List.nodup_append] at h1
    refine h1.2.2.2 x.data.1 (mem_idsL.mpr ⟨x, hx, ?_⟩) c.data.1 (List.mem_append.mpr (.inl ?_)) e
    · rw [ids_kids]; simp
    · rw [ids_kids]; simp
  simp only [SStore.nextSib, S.parent_eq hp hc, hAB]
  have : ∀ A : List (RTree (Nat × α)), (∀ x ∈ A, x.data.1 ≠ c.data.1) →
      ((A ++ c :: B).map fun c => c.data.1).dropWhile (fun x => decide (x ≠ c.data.1)) = c.data.1 :: B.map fun c => c.data.1 := by
    intro A hA
    induction A with
    | nil => simp
    | cons a A ih =>
      simp only [List.cons_append, List.map_cons]
      rw [List.dropWhile_cons_of_pos (by simpa using hA a (by simp))]
      exact ih fun x hx => hA x (by simp [hx])
  rw [this A hno]
  rfl

theorem iterCloneM (i : Var) : Match (rstep m (.iterClone i)) (sstep s (.iterClone i)) := by
  cases h : s.refs i with
  | none => simp only [sstep, h, rstep, S.ref_none h]; trivial
  | some q => cases q with
    | iter c n =>
      obtain ⟨it, h1, h2, h3⟩ := S.mref_iter h
      obtain ⟨m', e, A, h4⟩ := si_iterClone S.reach.si h1
      rw [e]
      simp only [sstep, h]
      refine ⟨by rw [S.fresh], φ, S.bind (op := .iterClone i) trivial (.inl ⟨_, e⟩) A.fresh A.refs A.looks A.vars A.log ?_ (by simp) (by simp) ?_⟩
      · rw [h4]; exact ⟨h2, h3⟩
      · intro c' n' hi
        exact S.oldI i c' n' (by rw [h, hi])
    | rc j => obtain ⟨r, h1⟩ := S.mref_rc h; simp only [sstep, h, rstep, h1]; trivial
    | weak j => have h1 := S.mref_weak h; simp only [sstep, h, rstep, h1]; trivial
    | guard j w => obtain ⟨a, h1⟩ := S.mref_guard h; simp only [sstep, h, rstep, h1]; trivial

theorem iterLenM (i : Var) : Match (rstep m (.iterLen i)) (sstep s (.iterLen i)) := by
  cases h : s.refs i with
  | none => simp only [sstep, h, rstep, S.ref_none h]; trivial
  | some q => cases q with
    | iter c n =>
      obtain ⟨it, h1, h2, h3⟩ := S.mref_iter h
      simp only [sstep, h, rstep, h1, h2]
      exact ⟨rfl, φ, S⟩
    | rc j => obtain ⟨r, h1⟩ := S.mref_rc h; simp only [sstep, h, rstep, h1]; trivial
    | weak j => have h1 := S.mref_weak h; simp only [sstep, h, rstep, h1]; trivial
    | guard j w => obtain ⟨a, h1⟩ := S.mref_guard h; simp only [sstep, h, rstep, h1]; trivial

theorem iterNextM (i : Var) (hb : sstep s (.iterNext i) ≠ .bad) : Match (rstep m (.iterNext i)) (sstep s (.iterNext i)) := by
  by_cases h : ∃ c n, s.refs i = some (.iter c n)
  · obtain ⟨c, n, h⟩ := h
    obtain ⟨⟨cu, n'⟩, h1, h2, h3⟩ := S.mref_iter h
    simp only at h2 h3
    subst h2
    have hirc : ∀ j, s.refs i ≠ some (.rc j) := by rw [h]; simp
    cases n' with
    | zero =>
      have e : rstep m (.iterNext i) = .ok m .none := si_iterNext_nil (m := m) (i := i) ⟨_, h1, rfl, by simp⟩
      have : sstep s (.iterNext i) = .ok s .none := by cases c <;> simp only [sstep, h]
      rw [this]; exact S.selfM e
    | succ n =>
      have h4 := h3 (by simp)
      subst h4
      cases c with
      | none =>
        obtain ⟨m', e, -, h4, h5, h6⟩ := si_iterNext_stay S.reach.si h1
        simp only [sstep, h]
        rw [e]
        refine ⟨rfl, φ, S.stay (op := .iterNext i) ?_ (.inl ⟨_, e⟩) ?_ rfl rfl ?_ fun j => ?_⟩
        · intro c cs hc
          obtain ⟨it, g1, g2, g3⟩ := hc
          rw [h1] at g1; cases g1
          have := g3 (by simp)
          simp at this
        · show s.excl = _; rw [h6, S.excl]
        · intro t ht
          obtain ⟨j, hj⟩ := S.held t ht
          have : j ≠ i := by rintro rfl; exact hirc _ hj
          exact ⟨j, by simp only [SStore.setRef, upd_of_ne _ _ this, hj]⟩
        · by_cases ej : j = i
          · subst ej; right
            simp only [SStore.setRef, upd_self, h4]
            refine ⟨⟨rfl, fun _ => rfl⟩, by simp, by simp, by simp⟩
          · left
            simp only [SStore.setRef, upd_of_ne _ _ ej, h4]
            exact ⟨trivial, trivial, h5 j⟩
      | some c =>
        have hc : c ∈ idsL s.roots := by
          by_contra hc
          apply hb
          simp only [sstep, h, SSim.node_none.mpr hc]
          rfl
        obtain ⟨u0, hu0, hu0e⟩ := mem_idsL_iff.mp hc
        subst hu0e
        have hs : m.Shown (φ u0.data.1) := S.shown.mpr ⟨_, hc, rfl⟩
        have hsafe : Safe m (.iterNext i) := by
          intro c' cs hc'
          obtain ⟨it, g1, g2, g3⟩ := hc'
          rw [h1] at g1; cases g1
          have := g3 (by simp)
          simp at this
          rw [← this]; exact hs
        obtain ⟨m', t, nx, e, Y, h4, h5, h6, h7, h8⟩ := si_iterNext_at S.reach.si h1 hs
        obtain ⟨u, hu, hue, rfl⟩ := S.look_sub (.ok (op := .iterNext i) S.reach hsafe e) hc Y.looks h4 h5
        have := sub_unique S.idsNodup hu hu0 hue
        subst this
        have hnx : nx = (s.nextSib u.data.1).map φ := by
          by_cases hroot : s.isRoot u.data.1 = true
          · rw [h7 ((S.not_hasParent hu).mpr hroot)]
            obtain ⟨t, ht, hte⟩ := S.root_iff.mp hroot
            rw [← hte]
            simp only [SStore.nextSib, S.parent_none ht]
            rfl
          · have hk := root_or_kid hu
            rcases hk with hk | ⟨p, hp, hcp⟩
            · exact absurd (S.root_iff.mpr ⟨u, hk, rfl⟩) hroot
            · obtain ⟨l, r, e1, e2⟩ := S.nextSib_eq hp hcp
              obtain ⟨j, t0, g1, g2⟩ := S.shown.mpr ⟨p.data.1, mem_idsL_iff.mpr ⟨p, hp, rfl⟩, rfl⟩
              obtain ⟨u0, g4, -, rfl⟩ := S.look_rc g1
              have hps : relab φ p ∈ (relab φ u0).subs := by
                rw [relab_subs]
                rw [relab_ids, List.mem_map] at g2
                obtain ⟨x, hx, hxe⟩ := g2
                have hx2 := S.inj (subsL_ids g4 x hx) (mem_idsL_iff.mpr ⟨p, hp, rfl⟩) hxe
                subst hx2
                obtain ⟨q, hq, hqe⟩ := mem_idsL_iff.mp (show p.data.1 ∈ idsL [u0] by simpa using hx)
                simp only [subsL_cons, subsL_nil, List.append_nil] at hq
                have := sub_unique S.idsNodup (subsL_trans g4 hq) hp hqe
                subst this
                exact List.mem_map_of_mem hq
              rw [h8 j _ _ (l.map φ) (r.map φ) g1 hps (by
                rw [relab_kids, relabL_eq, List.map_map]
                have : (fun c => c.data.1) ∘ relab φ = φ ∘ fun (c : RTree (Nat × α)) => c.data.1 := by
                  funext c; simp
                rw [this, ← List.map_map, e1]; simp), e2, List.head?_map]
        simp only [sstep, h]
        rw [S.node_eq hu]
        simp only [Option.isNone_some, Bool.false_eq_true, if_false]
        rw [e]
        have hif : i ≠ m.fresh := by
          intro ei; subst ei; rw [S.ref_fresh] at h; simp at h
        have hff := S.fresh
        refine ⟨by show _ = Out.var s.excl.fresh; rw [S.fresh], φ, S.stay (op := .iterNext i) hsafe (.inl ⟨_, e⟩) ?_ rfl rfl ?_ fun j => ?_⟩
        · rw [store_eq_of Y.fresh Y.vars Y.log, ← S.excl]
          simp only [SStore.bindRef, SStore.setRef, hff]
        · intro t ht
          obtain ⟨j, hj⟩ := S.held t ht
          have h9 : j ≠ i := by intro ej; subst ej; exact hirc _ hj
          have h10 : j ≠ s.excl.fresh := by intro ej; rw [hff] at ej; subst ej; rw [S.ref_fresh] at hj; simp at hj
          exact ⟨j, by simp only [SStore.bindRef, SStore.setRef, upd_of_ne _ _ h9, upd_of_ne _ _ h10, hj]⟩
        · by_cases ej : j = m.fresh
          · right
            subst ej
            have : (({ s with refs := upd s.refs i (some (.iter (s.nextSib u.data.1) n)) } : SStore α).bindRef (.rc u.data.1)).refs m.fresh = some (.rc u.data.1) := by
              simp only [SStore.bindRef, ← hff, upd_self]
            simp only [SStore.setRef] at this ⊢
            rw [this]
            obtain ⟨r, hr⟩ := look_ref h4
            rw [hr]
            refine ⟨trivial, ?_, by simp, by simp⟩
            intro x hx
            simp only [Option.some.injEq, SRef.rc.injEq] at hx
            exact ⟨u, hu, hx, h4⟩
          · have ej' : j ≠ s.excl.fresh := by rw [hff]; exact ej
            by_cases ei : j = i
            · right
              subst ei
              simp only [SStore.bindRef, SStore.setRef, upd_of_ne _ _ ej', upd_self, h6]
              refine ⟨⟨rfl, fun _ => hnx⟩, by simp, by simp, ?_⟩
              intro c k hck
              simp only [Option.some.injEq, SRef.iter.injEq] at hck
              obtain ⟨hck, -⟩ := hck
              simp only [SStore.nextSib] at hck
              split at hck
              · simp at hck
              · rename_i p hp
                have hpm := List.mem_of_find?_eq_some hp
                have hcm : c ∈ p.kids.map fun c => c.data.1 :=
                  (List.dropWhile_suffix _).mem (List.mem_of_mem_tail (List.mem_of_mem_head? hck))
                obtain ⟨v, hv, rfl⟩ := List.mem_map.mp hcm
                exact S.oldR _ (mem_idsL_iff.mpr ⟨v, S.kid_mem hpm hv, rfl⟩)
            · left
              simp only [SStore.bindRef, SStore.setRef, upd_of_ne _ _ ej', upd_of_ne _ _ ei]
              exact ⟨trivial, Y.refs j ej ei, Y.looks j ej⟩
  · have e1 : sstep s (.iterNext i) = .rejected := by
      simp only [sstep]
      split
      · rename_i c e; exact absurd ⟨_, _, e⟩ h
      · rename_i n e; exact absurd ⟨_, _, e⟩ h
      · rename_i c n e; exact absurd ⟨_, _, e⟩ h
      · rfl
    have e2 : rstep m (.iterNext i) = .rejected := by
      simp only [rstep]
      split
      · rename_i r e
        exfalso
        have := S.refs i
        rw [e] at this
        cases hq : s.refs i with
        | none => rw [hq] at this; exact this
        | some q =>
          rw [hq] at this
          cases q <;> first | exact this | exact h ⟨_, _, hq⟩
      · rfl
    rw [e1, e2]; trivial

end SSim

/-- **Every call: machine and specification agree.** -/
theorem SSim.call (op : ROp α) (hl : BoxedOnly m op) (hb : sstep s op ≠ .bad) : Match (rstep m op) (sstep s op) := by
  cases op with
  | excl op => exact S.exclM op
  | fromTree x => exact S.fromTreeM x
  | clone k => exact S.cloneM k hl
  | drop k => exact S.dropM k
  | isRoot k => exact S.isRootM k
  | data k => exact S.dataM k
  | degree k => exact S.degreeM k
  | nodeCount k => exact S.nodeCountM k
  | hasNoChild k => exact S.hasNoChildM k
  | front k => exact S.frontM k
  | back k => exact S.backM k
  | parent k => exact S.parentM k
  | pushFront k y => exact S.pushFrontM k y
  | pushBack k y => exact S.pushBackM k y
  | popFront k => exact S.popFrontM k
  | popBack k => exact S.popBackM k
  | prepend k y => exact S.prependM k y
  | append k y => exact S.appendM k y
  | insertPrevSib k y => exact S.insertPrevSibM k y
  | insertNextSib k y => exact S.insertNextSibM k y
  | detach k => exact S.detachM k
  | setData k d => exact S.setDataM k d
  | borrow k => exact S.borrowM k
  | borrowMut k => exact S.borrowMutM k
  | guardRead g => exact S.guardReadM g
  | guardWrite g d => exact S.guardWriteM g d
  | iterRc k => exact S.iterRcM k
  | iterNext i => exact S.iterNextM i hb
  | iterClone i => exact S.iterCloneM i
  | iterLen i => exact S.iterLenM i
  | downgrade k => exact S.downgradeM k hl
  | upgrade w => exact S.upgradeM w
  | deepClone k f => exact S.deepCloneM k f
  | intoTree k => exact S.intoTreeM k hb

end
end Trees
