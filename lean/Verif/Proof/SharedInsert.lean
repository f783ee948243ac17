import Verif.Proof.SharedTrans
/-
Insertion of exclusive trees into shared trees, and removal of shared nodes from their parents: the correspondence with
the specification.
-/
namespace Trees
set_option linter.unusedSimpArgs false
set_option linter.unusedVariables false
variable {α : Type}
open RTree

/-- Identities `n`, `n + 1`, ... for the nodes `ks`. -/
def extendAt (φ : Nat → Addr) (n : Nat) (ks : List Addr) (i : Nat) : Addr := if i < n then φ i else ks.getD (i - n) 0

theorem extendAt_old {φ : Nat → Addr} {n : Nat} {ks : List Addr} {i : Nat} (h : i < n) : extendAt φ n ks i = φ i := if_pos h

theorem extendAt_new (φ : Nat → Addr) (n : Nat) (ks : List Addr) : (List.range' n ks.length).map (extendAt φ n ks) = ks := by
  apply List.ext_getElem
  · simp
  · intro i h1 h2
    simp only [List.getElem_map, List.getElem_range', extendAt]
    rw [if_neg (by omega)]
    simp [List.getD, h2]

section
variable {φ : Nat → Addr} {m m' : RMachine α} {s : SStore α} {op : ROp α}

/-- New trees. -/
theorem SSim.news (S : SSim φ m s) {ts' : List (RTree (Addr × α))} (h1 : (idsL ts').Nodup) (h2 : ∀ b ∈ idsL ts', ¬ m.Shown b) {roots' : List (RTree (Nat × α))}
    (hp : (preL roots').Perm (preL s.roots ++ preL (labelL s.next (mapL Prod.snd ts')))) :
    ((idsL roots').map (extendAt φ s.next (idsL ts'))).Nodup ∧ (∀ i ∈ idsL roots', i < s.next + countL ts') ∧ (∀ i ∈ idsL s.roots, i ∈ idsL roots') ∧
    relabL (extendAt φ s.next (idsL ts')) (labelL s.next (mapL Prod.snd ts')) = ts' := by
  have hlen : (idsL ts').length = countL ts' := by rw [idsL, List.length_map, preL_len]
  have hids : (idsL roots').Perm (idsL s.roots ++ List.range' s.next (countL ts')) := by
    have := hp.map Prod.fst
    rw [List.map_append] at this
    have e : (preL (labelL s.next (mapL Prod.snd ts'))).map Prod.fst = List.range' s.next (countL ts') := by
      have := labelL_ids s.next (mapL Prod.snd ts')
      rw [mapL_count'] at this; exact this
    rw [e] at this; exact this
  have hnew : (List.range' s.next (countL ts')).map (extendAt φ s.next (idsL ts')) = idsL ts' := by
    rw [← hlen]; exact extendAt_new _ _ _
  have hmap : (idsL s.roots).map (extendAt φ s.next (idsL ts')) = (idsL s.roots).map φ :=
    List.map_congr_left fun i hi => extendAt_old (S.oldR i hi)
  refine ⟨?_, ?_, ?_, relab_labelL _ _ hnew⟩
  · rw [(hids.map _).nodup_iff, List.map_append, hnew, hmap]
    refine List.nodup_append.mpr ⟨S.nd, h1, ?_⟩
    intro a ha b hb e
    obtain ⟨i, hi, rfl⟩ := List.mem_map.mp ha
    exact h2 b hb (e ▸ S.shown.mpr ⟨i, hi, rfl⟩)
  · intro i hi
    rcases List.mem_append.mp (hids.mem_iff.mp hi) with h | h
    · exact Nat.lt_of_lt_of_le (S.oldR i h) (Nat.le_add_right _ _)
    · exact (List.mem_range'_1.mp h).2
  · intro i hi
    exact hids.mem_iff.mpr (List.mem_append.mpr (.inl hi))

theorem SSim.insert (S : SSim φ m s) (hsafe : Safe m op) (hst : Steps m op m') {ts' : List (RTree (Addr × α))} (h1 : (idsL ts').Nodup)
    (h2 : ∀ b ∈ idsL ts', ¬ m.Shown b) {e : Store α} (he : e = m'.excl.store) (hr : m'.refs = m.refs) {roots' : List (RTree (Nat × α))}
    (hp : (preL roots').Perm (preL s.roots ++ preL (labelL s.next (mapL Prod.snd ts'))))
    (hroot : ∀ t ∈ roots', ∃ t' ∈ s.roots, t'.data.1 = t.data.1) {f : RTree (Addr × α) → RTree (Addr × α)} {g : RTree (Nat × α) → RTree (Nat × α)}
    (hl : ∀ j, m'.look j = (m.look j).map f) (hg : ∀ u, (g u).data.1 = u.data.1)
    (hfg : ∀ u ∈ subsL s.roots, f (relab (extendAt φ s.next (idsL ts')) u) = relab (extendAt φ s.next (idsL ts')) (g u))
    (hgs : ∀ u ∈ subsL s.roots, g u ∈ subsL roots') :
    SSim (extendAt φ s.next (idsL ts')) m' { s with excl := e, roots := roots', next := s.next + countL ts' } := by
  obtain ⟨g1, g2, g3, -⟩ := S.news h1 h2 hp
  refine S.edit (s' := { s with excl := e, roots := roots', next := s.next + countL ts' }) hsafe hst he (Nat.le_add_right _ _) (fun i hi => extendAt_old hi) g1 g2 g3
    (fun t ht => .inl (hroot t ht)) rfl hr hl hg (fun u hu => ?_) hgs
  rw [← hfg u hu]
  congr 1
  exact relab_congr u fun x hx => (extendAt_old (S.oldR x (subsL_ids hu x hx))).symm

/-- New children. -/
theorem SSim.insertKids (S : SSim φ m s) (hsafe : Safe m op) (hst : Steps m op m') {p : RTree (Nat × α)} (hpm : p ∈ subsL s.roots) {ts' : List (RTree (Addr × α))}
    (h1 : (idsL ts').Nodup) (h2 : ∀ b ∈ idsL ts', ¬ m.Shown b) {e : Store α} (he : e = m'.excl.store) (hr : m'.refs = m.refs)
    {F : List (RTree (Nat × α)) → List (RTree (Nat × α))} {F' : List (RTree (Addr × α)) → List (RTree (Addr × α))}
    (hF : (F = fun us => labelL s.next (mapL Prod.snd ts') ++ us) ∧ (F' = fun us => ts' ++ us) ∨
      (F = fun us => us ++ labelL s.next (mapL Prod.snd ts')) ∧ (F' = fun us => us ++ ts'))
    (hl : ∀ j, m'.look j = (m.look j).map (modAt (φ p.data.1) F')) :
    SSim (extendAt φ s.next (idsL ts')) m' { s with excl := e, roots := modAtL p.data.1 F s.roots, next := s.next + countL ts' } := by
  have hn := S.idsNodup
  have hperm : (preL (modAtL p.data.1 F s.roots)).Perm (preL s.roots ++ preL (labelL s.next (mapL Prod.snd ts'))) := by
    have := modAtL_pre (f := F) (X := []) (Y := preL (labelL s.next (mapL Prod.snd ts'))) hn hpm rfl (by
      rcases hF with ⟨rfl, -⟩ | ⟨rfl, -⟩
      · simp only [List.append_nil, preL_append]; exact List.perm_append_comm
      · simp only [List.append_nil, preL_append]; exact .refl _)
    simpa using this
  obtain ⟨g1, g2, g3, g4⟩ := S.news h1 h2 hperm
  refine S.insert hsafe hst h1 h2 he hr hperm ?_ hl (fun u => RTree.modAt_root p.data.1 F u) (fun u hu => ?_) fun u hu => ?_
  · intro t ht
    rw [modAtL_eq, List.mem_map] at ht
    obtain ⟨t', h3, rfl⟩ := ht
    exact ⟨t', h3, (RTree.modAt_root _ F t').symm⟩
  · have hpi : p.data.1 ∈ idsL s.roots := mem_idsL_iff.mpr ⟨p, hpm, rfl⟩
    rw [← extendAt_old (φ := φ) (ks := idsL ts') (S.oldR _ hpi)]
    refine relab_modAt (fun ks => ?_) u fun x hx hxe => ?_
    · rcases hF with ⟨rfl, rfl⟩ | ⟨rfl, rfl⟩ <;> simp [g4]
    · have hxi := subsL_ids hu x hx
      rw [extendAt_old (S.oldR _ hxi), extendAt_old (S.oldR _ hpi)] at hxe
      exact S.inj hxi hpi hxe
  · rcases modAtL_sub (a := p.data.1) (f := F) hu with h | ⟨q, h3, h4, h5⟩
    · exact h
    · have : q = p := sub_unique hn h3 hpm h4
      subst this
      have hnot : q.data.1 ∉ u.ids := by
        intro hm
        have hqn := subsL_nodup hn h3
        rw [ids_kids, List.nodup_cons] at hqn
        exact hqn.1 (subsL_ids h5 _ hm)
      rw [modAt_none u hnot]
      refine modAtL_new hn h3 rfl ?_
      rcases hF with ⟨rfl, -⟩ | ⟨rfl, -⟩ <;> simp [subsL_append, h5]

/-- New siblings. -/
theorem SSim.insertSib (S : SSim φ m s) (hsafe : Safe m op) (hst : Steps m op m') {p : RTree (Nat × α)} (hpm : p ∈ subsL s.roots) (hroot : s.isRoot p.data.1 = false)
    {t' : RTree (Addr × α)} (h1 : t'.ids.Nodup) (h2 : ∀ b ∈ t'.ids, ¬ m.Shown b) {e : Store α} (he : e = m'.excl.store) (hr : m'.refs = m.refs)
    {F : RTree (Nat × α) → List (RTree (Nat × α))} {F' : RTree (Addr × α) → List (RTree (Addr × α))}
    (hF : (F = fun u => [label s.next t'.plain, u]) ∧ (F' = fun u => [t', u]) ∨ (F = fun u => [u, label s.next t'.plain]) ∧ (F' = fun u => [u, t']))
    (hl : ∀ j, m'.look j = (m.look j).map (sibAt (φ p.data.1) F')) :
    SSim (extendAt φ s.next (idsL [t'])) m' { s with excl := e, roots := sibAtL p.data.1 F s.roots, next := s.next + countL [t'] } := by
  have hn := S.idsNodup
  have hlab : labelL s.next (mapL Prod.snd [t']) = [label s.next t'.plain] := by simp [mapL, labelL, plain]
  have hnr : ∀ t ∈ s.roots, t.data.1 ≠ p.data.1 := by
    intro t ht e
    rw [← Bool.not_eq_true, S.root_iff] at hroot
    exact hroot ⟨t, ht, e⟩
  have hperm : (preL (sibAtL p.data.1 F s.roots)).Perm (preL s.roots ++ preL (labelL s.next (mapL Prod.snd [t']))) := by
    have := sibAtL_pre (f := F) (X := []) (Y := preL (labelL s.next (mapL Prod.snd [t']))) hn hpm rfl (by
      rw [hlab]
      rcases hF with ⟨rfl, -⟩ | ⟨rfl, -⟩
      · simp only [List.append_nil, preL]; exact List.perm_append_comm
      · simp only [List.append_nil, preL]; exact .refl _)
    simpa using this
  have h1' : (idsL [t']).Nodup := by simpa using h1
  have h2' : ∀ b ∈ idsL [t'], ¬ m.Shown b := by simpa using h2
  obtain ⟨g1, g2, g3, g4⟩ := S.news h1' h2' hperm
  rw [hlab] at g4
  simp only [relabL_cons, relabL_nil, List.cons.injEq, and_true] at g4
  refine S.insert hsafe hst h1' h2' he hr hperm ?_ hl (fun u => RTree.sibAt_root p.data.1 F u) (fun u hu => ?_) fun u hu => ?_
  · intro t ht
    rw [sibAtL_eq hnr, List.mem_map] at ht
    obtain ⟨t', h3, rfl⟩ := ht
    exact ⟨t', h3, (RTree.sibAt_root _ F t').symm⟩
  · have hpi : p.data.1 ∈ idsL s.roots := mem_idsL_iff.mpr ⟨p, hpm, rfl⟩
    rw [← extendAt_old (φ := φ) (ks := idsL [t']) (S.oldR _ hpi)]
    refine relab_sibAt (fun ks => ?_) u fun x hx hxe => ?_
    · rcases hF with ⟨rfl, rfl⟩ | ⟨rfl, rfl⟩ <;> simp only [relabL_cons, relabL_nil, g4]
    · have hxi := subsL_ids hu x hx
      rw [extendAt_old (S.oldR _ hxi), extendAt_old (S.oldR _ hpi)] at hxe
      exact S.inj hxi hpi hxe
  · rcases sibAtL_sub_mod (a := p.data.1) (f := F) hn hu with h | ⟨q, h3, h4, h5⟩
    · exact h
    · have : q = p := sub_unique hn h3 hpm h4
      subst this
      have hqn := subsL_nodup hn h3
      rw [ids_kids, List.nodup_cons] at hqn
      have hnot : q.data.1 ∉ idsL u.kids := by
        intro hm
        rw [subs_eq] at h5
        rcases List.mem_cons.mp h5 with rfl | h5
        · exact hqn.1 hm
        · exact hqn.1 (subsL_ids h5 _ (by rw [ids_kids]; exact List.mem_cons_of_mem _ hm))
      rw [sibAt_none u hnot]
      refine sibAtL_new hn h3 rfl ?_
      rcases hF with ⟨rfl, -⟩ | ⟨rfl, -⟩ <;> simp [h5]

end
end Trees
