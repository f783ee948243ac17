import Verif.Proof.SharedInsert
/-
Removal of shared nodes, new data, new and lost roots: the correspondence with the specification.
-/
namespace Trees
set_option linter.unusedSimpArgs false
set_option linter.unusedVariables false
variable {α : Type}
open RTree

section
variable {φ : Nat → Addr} {m m' : RMachine α} {s : SStore α} {op : ROp α}

/-- A permutation of the nodes. -/
theorem SSim.perm (S : SSim φ m s) {roots' : List (RTree (Nat × α))} (hp : (idsL roots').Perm (idsL s.roots)) :
    ((idsL roots').map φ).Nodup ∧ (∀ i ∈ idsL roots', i < s.next) ∧ ∀ i ∈ idsL s.roots, i ∈ idsL roots' :=
  ⟨(hp.map φ).nodup_iff.mpr S.nd, fun i hi => S.oldR i (hp.mem_iff.mp hi), fun i hi => hp.mem_iff.mpr hi⟩

omit m m' φ s op in
theorem not_below {F : List (RTree (Nat × α))} (hn : (idsL F).Nodup) {p u : RTree (Nat × α)} (hp : p ∈ subsL F) (hu : u ∈ subsL p.kids) : p.data.1 ∉ u.ids := by
  intro hm
  have hqn := subsL_nodup hn hp
  rw [ids_kids, List.nodup_cons] at hqn
  exact hqn.1 (subsL_ids hu _ hm)

/-- `pop_front`, `pop_back`. -/
theorem SSim.pop (S : SSim φ m s) (hsafe : Safe m op) (hst : Steps m op m') {p c : RTree (Nat × α)} (hpm : p ∈ subsL s.roots) (hc : c ∈ p.kids)
    {F : List (RTree (Nat × α)) → List (RTree (Nat × α))} {F' : List (RTree (Addr × α)) → List (RTree (Addr × α))}
    (hF : ∀ ks, F' (relabL φ ks) = relabL φ (F ks)) (hperm : (F p.kids ++ [c]).Perm p.kids)
    (T : Takes m m' (modAt (φ p.data.1) F')) (hlk : m'.look m.fresh = some (relab φ c)) :
    SSim φ m' (({ s with roots := modAtL p.data.1 F s.roots ++ [c] } : SStore α).bindRef (.rc c.data.1)) := by
  have hn := S.idsNodup
  have hff := S.fresh
  have hsubsP : ∀ {xs ys : List (RTree (Nat × α))}, xs.Perm ys → (preL xs).Perm (preL ys) := by
    intro xs ys h
    induction h with
    | nil => exact .refl _
    | cons x _ ih => simp only [preL]; exact ih.append_left _
    | swap x y l => simp only [preL, ← List.append_assoc]; exact (List.perm_append_comm).append_right _
    | trans _ _ i1 i2 => exact i1.trans i2
  have hpre : (preL (modAtL p.data.1 F s.roots) ++ c.pre).Perm (preL s.roots) := by
    have := modAtL_pre (f := F) (X := c.pre) (Y := []) hn hpm rfl (by
      have := hsubsP hperm
      simpa [preL_append, preL] using this)
    simpa using this
  have hids : (idsL (modAtL p.data.1 F s.roots ++ [c])).Perm (idsL s.roots) := by
    have := hpre.map Prod.fst
    simpa [idsL, preL_append, preL] using this
  obtain ⟨g1, g2, g3⟩ := S.perm hids
  refine S.step hsafe hst ?_ (Nat.le_refl _) (fun _ _ => rfl) g1 g2 (.inr g3) ?_ fun k => ?_
  · rw [store_eq_of T.fresh T.vars T.log, ← S.excl]
    simp only [SStore.bindRef, hff]
  · intro t ht
    simp only [SStore.bindRef, List.mem_append, List.mem_singleton] at ht
    rcases ht with ht | rfl
    · rw [modAtL_eq, List.mem_map] at ht
      obtain ⟨t', h3, rfl⟩ := ht
      obtain ⟨k, hk⟩ := S.held t' h3
      refine ⟨k, ?_⟩
      have hlt : k ≠ s.excl.fresh := Nat.ne_of_lt (S.ref_lt hk)
      simp only [SStore.bindRef, upd_of_ne _ _ hlt, hk, RTree.modAt_root]
    · exact ⟨s.excl.fresh, by simp [SStore.bindRef]⟩
  · by_cases e : k = m.fresh
    · subst e
      right
      obtain ⟨r, hr⟩ := look_ref hlk
      simp only [SStore.bindRef, hff, upd_self, Option.some.injEq, SRef.rc.injEq, reduceCtorEq, false_implies, implies_true, and_true]
      refine ⟨by rw [hr]; trivial, ?_⟩
      rintro i rfl
      exact ⟨c, by simp [subsL_append, self_mem_subs], rfl, hlk⟩
    · left
      have e' : k ≠ s.excl.fresh := by rw [hff]; exact e
      simp only [SStore.bindRef, upd_of_ne _ _ e', true_and]
      refine ⟨T.refs k e, fun u hu hk hl => ⟨modAt p.data.1 F u, ?_, RTree.modAt_root _ F u, ?_⟩⟩
      · rw [subsL_append, List.mem_append]
        rcases modAtL_sub (a := p.data.1) (f := F) hu with h | ⟨q, h3, h4, h5⟩
        · exact .inl h
        · have : q = p := sub_unique hn h3 hpm h4
          subst this
          rw [modAt_none u (not_below hn h3 h5)]
          obtain ⟨d, h6, h7⟩ := mem_subsL.mp h5
          rcases List.mem_append.mp (hperm.mem_iff.mpr h6) with h8 | h8
          · exact .inl (modAtL_new hn h3 rfl (mem_subsL.mpr ⟨d, h8, h7⟩))
          · simp only [List.mem_singleton] at h8; subst h8
            exact .inr (by simpa using h7)
      · rw [T.looks k e, hl, Option.map_some]
        congr 1
        refine relab_modAt hF u fun x hx hxe => S.inj (subsL_ids hu x hx) (mem_idsL_iff.mpr ⟨p, hpm, rfl⟩) hxe

/-- `detach`. -/
theorem SSim.detach (S : SSim φ m s) (hsafe : Safe m op) (hst : Steps m op m') {k : Var} {p : RTree (Nat × α)} (hpm : p ∈ subsL s.roots) (hk : s.refs k = some (.rc p.data.1))
    (hroot : s.isRoot p.data.1 = false) (E : Edits m m' (sibAt (φ p.data.1) fun _ => []) []) :
    SSim φ m' { s with roots := sibAtL p.data.1 (fun _ => []) s.roots ++ [p] } := by
  have hn := S.idsNodup
  have hnr : ∀ t ∈ s.roots, t.data.1 ≠ p.data.1 := by
    intro t ht e
    rw [← Bool.not_eq_true, S.root_iff] at hroot
    exact hroot ⟨t, ht, e⟩
  have hpre : (preL (sibAtL p.data.1 (fun _ => []) s.roots) ++ p.pre).Perm (preL s.roots) := by
    have := sibAtL_pre (f := fun _ => []) (X := p.pre) (Y := []) hn hpm rfl (by simp [preL])
    simpa using this
  have hids : (idsL (sibAtL p.data.1 (fun _ => []) s.roots ++ [p])).Perm (idsL s.roots) := by
    have := hpre.map Prod.fst
    simpa [idsL, preL_append, preL] using this
  obtain ⟨g1, g2, g3⟩ := S.perm hids
  refine S.edit (s' := { s with roots := sibAtL p.data.1 (fun _ => []) s.roots ++ [p] }) hsafe hst ?_ (Nat.le_refl _) (fun _ _ => rfl) g1 g2 g3 ?_ rfl E.refs E.looks
    (fun u => RTree.sibAt_root p.data.1 (fun _ => []) u) (fun u hu => ?_) fun u hu => ?_
  · show s.excl = _
    rw [E.store, S.excl]; simp [Store.drop]
  · intro t ht
    simp only [List.mem_append, List.mem_singleton] at ht
    rcases ht with ht | rfl
    · rw [sibAtL_eq hnr, List.mem_map] at ht
      obtain ⟨t', h3, rfl⟩ := ht
      exact .inl ⟨t', h3, (RTree.sibAt_root _ _ t').symm⟩
    · exact .inr ⟨k, hk⟩
  · exact relab_sibAt (fun ks => rfl) u fun x hx hxe => S.inj (subsL_ids hu x hx) (mem_idsL_iff.mpr ⟨p, hpm, rfl⟩) hxe
  · rw [subsL_append, List.mem_append]
    rcases sibAtL_sub_mod (a := p.data.1) (f := fun _ => []) hn hu with h | ⟨q, h3, h4, h5⟩
    · exact .inl h
    · have : q = p := sub_unique hn h3 hpm h4
      subst this
      have hqn := subsL_nodup hn h3
      rw [ids_kids, List.nodup_cons] at hqn
      have hnot : q.data.1 ∉ idsL u.kids := by
        intro hm
        rw [subs_eq] at h5
        rcases List.mem_cons.mp h5 with rfl | h5
        · exact hqn.1 hm
        · exact hqn.1 (subsL_ids h5 _ (by rw [ids_kids]; exact List.mem_cons_of_mem _ hm))
      rw [sibAt_none u hnot]
      exact .inr (by simpa using h5)

/-- New data. -/
theorem SSim.set (S : SSim φ m s) (hsafe : Safe m op) (hst : Steps m op m') {p : RTree (Nat × α)} (hpm : p ∈ subsL s.roots) {d : α} {lg : List α}
    (E : Edits m m' (setAt (φ p.data.1) d) lg) : SSim φ m' (({ s with roots := setAtL p.data.1 d s.roots } : SStore α).log lg) := by
  have hids : (idsL (setAtL p.data.1 d s.roots)).Perm (idsL s.roots) := by rw [setAtL_ids]
  obtain ⟨g1, g2, g3⟩ := S.perm hids
  refine S.edit (s' := ({ s with roots := setAtL p.data.1 d s.roots } : SStore α).log lg) hsafe hst ?_ (Nat.le_refl _) (fun _ _ => rfl) g1 g2 g3 ?_ rfl E.refs E.looks
    (fun u => RTree.setAt_root p.data.1 d u) (fun u hu => ?_) fun u hu => ?_
  · show s.excl.drop lg = _
    rw [E.store, S.excl]
  · intro t ht
    simp only [SStore.log, setAtL_eq, List.mem_map] at ht
    obtain ⟨t', h3, rfl⟩ := ht
    exact .inl ⟨t', h3, (RTree.setAt_root _ _ t').symm⟩
  · exact relab_setAt u fun x hx hxe => S.inj (subsL_ids hu x hx) (mem_idsL_iff.mpr ⟨p, hpm, rfl⟩) hxe
  · show setAt _ _ u ∈ subsL (setAtL _ _ _)
    rw [setAtL_subs]; exact List.mem_map_of_mem hu

/-- `RcNode::from( tree )`. -/
theorem SSim.fromTree (S : SSim φ m s) (hsafe : Safe m op) (hst : Steps m op m') {x : Var} {t : RTree (Addr × α)} (hx : m.lookTree x = some t)
    (hl : m'.look m.fresh = some t) (hj : ∀ j, j ≠ m.fresh → m'.refs j = m.refs j ∧ m'.look j = m.look j)
    (he : m'.excl.store = { m.excl.store.set x none with fresh := m.fresh + 1 }) :
    SSim (extendAt φ s.next (idsL [t])) m' { ({ s with excl := s.excl.set x none } : SStore α).bindRef (.rc s.next) with
      roots := s.roots ++ [t.plain.label s.next], next := s.next + t.plain.count } := by
  obtain ⟨h1, h2, h3⟩ := si_lookTree S.reach.si hx
  have hlab : labelL s.next (mapL Prod.snd [t]) = [label s.next t.plain] := by simp [mapL, labelL, plain]
  have hperm : (preL (s.roots ++ [t.plain.label s.next])).Perm (preL s.roots ++ preL (labelL s.next (mapL Prod.snd [t]))) := by
    rw [hlab, preL_append]
  obtain ⟨g1, g2, g3, g4⟩ := S.news (ts' := [t]) (by simpa using h1) (by simpa using h2) hperm
  rw [hlab] at g4
  simp only [relabL_cons, relabL_nil, List.cons.injEq, and_true] at g4
  have hct : t.plain.count = countL [t] := by simp [plain, map_count']
  have hff := S.fresh
  refine S.step hsafe hst ?_ (Nat.le_add_right _ _) (fun i hi => extendAt_old hi) g1 (by rw [hct]; exact g2) (.inr g3) ?_ fun k => ?_
  · rw [he, ← S.excl]
    simp only [SStore.bindRef]
    have : (s.excl.set x none).fresh = m.fresh := by rw [← hff]; rfl
    rw [this]
  · intro u hu
    simp only [List.mem_append, List.mem_singleton] at hu
    rcases hu with hu | rfl
    · obtain ⟨k, hk⟩ := S.held u hu
      refine ⟨k, ?_⟩
      have hlt : k ≠ (s.excl.set x none).fresh := Nat.ne_of_lt (S.ref_lt hk)
      simp only [SStore.bindRef, upd_of_ne _ _ hlt, hk]
    · exact ⟨(s.excl.set x none).fresh, by simp [SStore.bindRef, label_root]⟩
  · have hff' : (s.excl.set x none).fresh = m.fresh := by rw [← hff]; rfl
    by_cases e : k = m.fresh
    · subst e
      right
      obtain ⟨r, hr⟩ := look_ref hl
      simp only [SStore.bindRef, hff', upd_self, Option.some.injEq, SRef.rc.injEq, reduceCtorEq, false_implies, implies_true, and_true]
      refine ⟨by rw [hr]; trivial, ?_⟩
      rintro i rfl
      exact ⟨t.plain.label s.next, by simp [subsL_append, self_mem_subs], label_root _ _, by rw [g4]; exact hl⟩
    · left
      have e' : k ≠ (s.excl.set x none).fresh := by rw [hff']; exact e
      simp only [SStore.bindRef, upd_of_ne _ _ e', true_and]
      refine ⟨(hj k e).1, fun u hu hk hl => ⟨u, ?_, rfl, ?_⟩⟩
      · rw [subsL_append, List.mem_append]; exact .inl hu
      · rw [(hj k e).2, hl]
        congr 1
        exact relab_congr u fun x hx => (extendAt_old (S.oldR x (subsL_ids hu x hx))).symm

open Classical in
/-- The drop of a handle. -/
theorem SSim.release (S : SSim φ m s) (hsafe : Safe m op) (hst : Steps m op m') {k : Var} {p : RTree (Nat × α)} (hpm : p ∈ subsL s.roots) (hk : s.refs k = some (.rc p.data.1))
    (hr : m'.refs = upd m.refs k none) (hl : ∀ j, j ≠ k → m'.look j = m.look j)
    (he : m'.excl.store = m.excl.store.drop (if m.HasParent (φ p.data.1) then [] else (released (m.heldElse k) (relab φ p)).map Prod.snd)) :
    SSim φ m' (s.release k p.data.1 p) := by
  have hn := S.idsNodup
  simp only [SStore.release]
  by_cases hroot : s.isRoot p.data.1 = true
  · rw [if_pos hroot]
    rw [if_neg ((S.not_hasParent hpm).mpr hroot)] at he
    obtain ⟨t, ht, htp⟩ := S.root_iff.mp hroot
    have : t = p := sub_unique hn (root_mem_subsL ht) hpm htp
    subst this
    obtain ⟨A, B, hAB⟩ := List.append_of_mem ht
    have hother : ∀ u ∈ A ++ B, u.data.1 ≠ t.data.1 := by
      intro u hu e
      have hn' := hn
      rw [hAB] at hn'
      have : (A ++ t :: B).map (fun u => u.data.1) |>.Nodup := by
        rw [hAB] at hn
        exact (List.nodup_append.mp (kidIds_nodup hn)).1
      rw [List.map_append, List.map_cons, List.nodup_append] at this
      rcases List.mem_append.mp hu with h | h
      · exact this.2.2 _ (List.mem_map_of_mem h) _ (List.mem_cons_self ..) e
      · exact (List.nodup_cons.mp this.2.1).1 (e ▸ List.mem_map_of_mem h)
    have hfm : ∀ l : List (RTree (Nat × α)), (∀ u ∈ l, u.data.1 ≠ t.data.1) →
        l.flatMap (fun u => if u.data.1 = t.data.1 then u.survivors (s.heldElse k) else [u]) = l := by
      intro l hl
      induction l with
      | nil => rfl
      | cons a l ih => simp [List.flatMap_cons, hl a (by simp), ih fun u hu => hl u (by simp [hu])]
    have hroots : s.roots.flatMap (fun u => if u.data.1 = t.data.1 then u.survivors (s.heldElse k) else [u]) = A ++ (t.survivors (s.heldElse k) ++ B) := by
      rw [hAB, List.flatMap_append, List.flatMap_cons, hfm A fun u hu => hother u (by simp [hu]), hfm B fun u hu => hother u (by simp [hu])]
      simp
    have hpre : (idsL (A ++ (t.survivors (s.heldElse k) ++ B)) ++ (t.released (s.heldElse k)).map Prod.fst).Perm (idsL s.roots) := by
      have h1 := (survivors_perm (s.heldElse k) t).map Prod.fst
      rw [hAB]
      simp only [idsL_append, idsL_cons, List.append_assoc]
      refine List.Perm.append_left _ ?_
      rw [List.map_append] at h1
      exact ((List.perm_append_comm.append_left _).trans (by rw [← List.append_assoc]; exact List.Perm.refl _)).trans (h1.append_right _)
    have hsub : ∀ i ∈ idsL (A ++ (t.survivors (s.heldElse k) ++ B)), i ∈ idsL s.roots := fun i hi => hpre.mem_iff.mp (List.mem_append.mpr (.inl hi))
    refine S.step (s' := { s.setRef k none with
      roots := s.roots.flatMap fun u => if u.data.1 = t.data.1 then u.survivors (s.heldElse k) else [u]
      excl := s.excl.drop ((t.released (s.heldElse k)).map Prod.snd) }) hsafe hst ?_ (Nat.le_refl _) (fun _ _ => rfl) ?_ ?_ (.inl ?_) ?_ fun j => ?_
    · show s.excl.drop _ = _
      rw [he, S.excl, relab_released (p := s.heldElse k) t fun x hx => S.heldElse_eq (subsL_ids hpm x hx)]
    · show ((idsL (s.roots.flatMap _)).map φ).Nodup
      rw [hroots]
      have := (hpre.map φ).nodup_iff.mpr S.nd
      rw [List.map_append] at this
      exact (List.nodup_append.mp this).1
    · show ∀ i ∈ idsL (s.roots.flatMap _), _
      rw [hroots]; exact fun i hi => S.oldR i (hsub i hi)
    · show ∀ i ∈ idsL (s.roots.flatMap _), _
      rw [hroots]; exact hsub
    · show ∀ u ∈ s.roots.flatMap _, _
      rw [hroots]
      intro u hu
      have key : (u ∈ A ++ B) → ∃ j, (s.setRef k none).refs j = some (.rc u.data.1) := by
        intro hu2
        have hur : u ∈ s.roots := by rw [hAB]; simp only [List.mem_append, List.mem_cons] at hu2 ⊢; tauto
        obtain ⟨j, hj⟩ := S.held u hur
        have : j ≠ k := by
          intro e; subst e
          rw [hk] at hj
          simp only [Option.some.injEq, SRef.rc.injEq] at hj
          exact hother u hu2 hj.symm
        exact ⟨j, by simp only [SStore.setRef, upd_of_ne _ _ this, hj]⟩
      simp only [List.mem_append] at hu
      rcases hu with hu | hu | hu
      · exact key (by simp [hu])
      · obtain ⟨-, h2⟩ := survivors_sub _ hu
        obtain ⟨j, h3, h4⟩ := S.heldElse_iff.mp h2
        exact ⟨j, by simp only [SStore.setRef, upd_of_ne _ _ h3, h4]⟩
      · exact key (by simp [hu])
    · by_cases e : j = k
      · subst e
        right
        simp only [SStore.setRef, upd_self, hr, reduceCtorEq, false_implies, implies_true, and_true]
        trivial
      · left
        simp only [SStore.setRef, upd_of_ne _ _ e, hr, true_and]
        intro u hu hj hlj
        refine ⟨u, ?_, rfl, by rw [hl j e]; exact hlj⟩
        rw [hroots]
        simp only [subsL_append, List.mem_append]
        rw [hAB] at hu
        simp only [subsL_append, subsL_cons, List.mem_append] at hu
        rcases hu with h | h | h
        · exact .inl h
        · obtain ⟨q, h1, h2⟩ := survivor_of (s.heldElse k) h (S.heldElse_iff.mpr ⟨j, e, hj⟩)
          exact .inr (.inl (mem_subsL.mpr ⟨q, h1, h2⟩))
        · exact .inr (.inr h)
  · rw [if_neg hroot]
    have hroot' : s.isRoot p.data.1 = false := by simpa using hroot
    rw [if_pos ((S.hasParent hpm).mpr hroot')] at he
    refine S.stay hsafe hst ?_ rfl rfl ?_ fun j => ?_
    · show s.excl = _
      rw [he, S.excl]; simp [Store.drop]
    · intro t ht
      obtain ⟨j, hj⟩ := S.held t ht
      have : j ≠ k := by
        intro e; subst e
        rw [hk] at hj
        simp only [Option.some.injEq, SRef.rc.injEq] at hj
        exact hroot (S.root_iff.mpr ⟨t, ht, hj.symm⟩)
      exact ⟨j, by simp only [SStore.setRef, upd_of_ne _ _ this, hj]⟩
    · by_cases e : j = k
      · subst e
        right
        simp only [SStore.setRef, upd_self, hr, reduceCtorEq, false_implies, implies_true, and_true]
        trivial
      · left
        simp only [SStore.setRef, upd_of_ne _ _ e, hr, true_and]
        exact hl j e

/-- A tree that is no longer shared. -/
theorem SSim.unshare (S : SSim φ m s) (hsafe : Safe m op) (hst : Steps m op m') {k : Var} {p : RTree (Nat × α)} (hp : p ∈ s.roots) (hk : s.refs k = some (.rc p.data.1))
    (hno : ∀ j i, j ≠ k → s.refs j = some (.rc i) → i ∉ p.ids) (hr : m'.refs = upd m.refs k none) (hl : ∀ j, j ≠ k → m'.look j = m.look j) {e : Store α}
    (he : e = m'.excl.store) : SSim φ m' { s.setRef k none with roots := s.roots.filter (fun u => u.data.1 ≠ p.data.1), excl := e } := by
  have hn := S.idsNodup
  have hsl : (idsL (s.roots.filter (fun u => u.data.1 ≠ p.data.1))).Sublist (idsL s.roots) := by
    generalize s.roots = F
    induction F with
    | nil => exact List.Sublist.refl _
    | cons a F ih =>
      rw [List.filter_cons]
      split
      · simp only [idsL_cons]; exact ih.append_left _
      · simp only [idsL_cons]; exact ih.trans (List.sublist_append_right _ _)
  refine S.step (s' := { s.setRef k none with roots := s.roots.filter (fun u => u.data.1 ≠ p.data.1), excl := e }) hsafe hst he (Nat.le_refl _) (fun _ _ => rfl)
    (S.nd.sublist (hsl.map φ)) (fun i hi => S.oldR i (hsl.mem hi)) (.inl fun i hi => hsl.mem hi) ?_ fun j => ?_
  · intro t ht
    replace ht := List.mem_filter.mp ht
    obtain ⟨j, hj⟩ := S.held t ht.1
    have : j ≠ k := by
      intro e; subst e
      rw [hk] at hj
      simp only [Option.some.injEq, SRef.rc.injEq] at hj
      simpa [hj] using ht.2
    exact ⟨j, by simp only [SStore.setRef, upd_of_ne _ _ this, hj]⟩
  · by_cases e : j = k
    · subst e
      right
      simp only [SStore.setRef, upd_self, hr, reduceCtorEq, false_implies, implies_true, and_true]
      trivial
    · left
      simp only [SStore.setRef, upd_of_ne _ _ e, hr, true_and]
      intro u hu hj hlj
      refine ⟨u, ?_, rfl, by rw [hl j e]; exact hlj⟩
      obtain ⟨t, ht, hut⟩ := mem_subsL.mp hu
      refine mem_subsL.mpr ⟨t, List.mem_filter.mpr ⟨ht, ?_⟩, hut⟩
      simp only [ne_eq, decide_not, Bool.not_eq_eq_eq_not, Bool.not_true, decide_eq_false_iff_not]
      intro e'
      have : t = p := sub_unique hn (root_mem_subsL ht) (root_mem_subsL hp) e'
      subst this
      exact hno j _ e hj (subs_ids hut _ (root_mem_ids u))

end
end Trees
