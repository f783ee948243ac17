import Verif.Proof.SharedTrees
/-
How changes at one node act on the subtrees and on the list of nodes. No machine.
-/
namespace Trees
namespace RTree
set_option linter.unusedSimpArgs false
set_option linter.unusedVariables false
variable {α β ι κ : Type}

section
variable [DecidableEq ι]

/-! ### The children of a node are replaced -/

theorem modAtL_eq (a : ι) (f : List (RTree (ι × α)) → List (RTree (ι × α))) (ts : List (RTree (ι × α))) : modAtL a f ts = ts.map (modAt a f) := by
  induction ts with
  | nil => rfl
  | cons t ts ih => simp [modAtL, ih]

mutual
theorem modAt_none {a : ι} {f : List (RTree (ι × α)) → List (RTree (ι × α))} : ∀ (t : RTree (ι × α)), a ∉ t.ids → modAt a f t = t
  | node x ts, h => by
    rw [ids_node, List.mem_cons, not_or] at h
    simp only [modAt]
    rw [if_neg (fun e => h.1 e.symm), modAtL_none ts h.2]
theorem modAtL_none {a : ι} {f : List (RTree (ι × α)) → List (RTree (ι × α))} : ∀ (ts : List (RTree (ι × α))), a ∉ idsL ts → modAtL a f ts = ts
  | [], h => rfl
  | t :: ts, h => by
    rw [idsL_cons, List.mem_append, not_or] at h
    simp only [modAtL]
    rw [modAt_none t h.1, modAtL_none ts h.2]
end

mutual
/-- A subtree is still there, changed in the same way, unless it was below the node. -/
theorem modAt_sub {a : ι} {f : List (RTree (ι × α)) → List (RTree (ι × α))} : ∀ {t u : RTree (ι × α)}, u ∈ t.subs →
    modAt a f u ∈ (modAt a f t).subs ∨ ∃ p ∈ t.subs, p.data.1 = a ∧ u ∈ subsL p.kids
  | node x ts, u, h => by
    rw [subs_eq] at h
    rcases List.mem_cons.mp h with rfl | h
    · exact .inl (self_mem_subs _)
    · by_cases hx : x.1 = a
      · exact .inr ⟨node x ts, self_mem_subs _, hx, h⟩
      · rcases modAtL_sub (a := a) (f := f) h with h | ⟨p, h1, h2⟩
        · left
          rw [modAt, if_neg hx, subs_eq]; exact List.mem_cons_of_mem _ h
        · exact .inr ⟨p, by rw [subs_eq]; exact List.mem_cons_of_mem _ h1, h2⟩
theorem modAtL_sub {a : ι} {f : List (RTree (ι × α)) → List (RTree (ι × α))} : ∀ {ts : List (RTree (ι × α))} {u : RTree (ι × α)}, u ∈ subsL ts →
    modAt a f u ∈ subsL (modAtL a f ts) ∨ ∃ p ∈ subsL ts, p.data.1 = a ∧ u ∈ subsL p.kids
  | [], u, h => by simp at h
  | t :: ts, u, h => by
    simp only [modAtL, subsL_cons, List.mem_append] at h ⊢
    rcases h with h | h
    · rcases modAt_sub (a := a) (f := f) h with h | ⟨p, h1, h2⟩
      · exact .inl (.inl h)
      · exact .inr ⟨p, .inl h1, h2⟩
    · rcases modAtL_sub (a := a) (f := f) h with h | ⟨p, h1, h2⟩
      · exact .inl (.inr h)
      · exact .inr ⟨p, .inr h1, h2⟩
end

mutual
/-- The new children are there. -/
theorem modAt_new {a : ι} {f : List (RTree (ι × α)) → List (RTree (ι × α))} : ∀ {t p v : RTree (ι × α)}, t.ids.Nodup → p ∈ t.subs → p.data.1 = a →
    v ∈ subsL (f p.kids) → v ∈ (modAt a f t).subs
  | node x ts, p, v, hn, hp, ha, hv => by
    rw [ids_node, List.nodup_cons] at hn
    rw [subs_eq] at hp
    simp only [modAt, subs_eq]
    refine List.mem_cons_of_mem _ ?_
    rcases List.mem_cons.mp hp with rfl | hp
    · simp only [data_node] at ha
      rw [kids_node, if_pos ha]; exact hv
    · have : x.1 ≠ a := fun e => hn.1 (mem_idsL_iff.mpr ⟨p, hp, ha.trans e.symm⟩)
      rw [kids_node, if_neg this]; exact modAtL_new hn.2 hp ha hv
theorem modAtL_new {a : ι} {f : List (RTree (ι × α)) → List (RTree (ι × α))} : ∀ {ts : List (RTree (ι × α))} {p v : RTree (ι × α)}, (idsL ts).Nodup → p ∈ subsL ts → p.data.1 = a →
    v ∈ subsL (f p.kids) → v ∈ subsL (modAtL a f ts)
  | [], p, v, hn, hp, ha, hv => by simp at hp
  | t :: ts, p, v, hn, hp, ha, hv => by
    rw [idsL_cons, List.nodup_append] at hn
    simp only [modAtL, subsL_cons, List.mem_append] at hp ⊢
    exact hp.imp (fun hp => modAt_new hn.1 hp ha hv) (fun hp => modAtL_new hn.2.1 hp ha hv)
end

mutual
/-- The nodes after the change. -/
theorem modAt_pre {a : ι} {f : List (RTree (ι × α)) → List (RTree (ι × α))} {X Y : List (ι × α)} : ∀ {t p : RTree (ι × α)}, t.ids.Nodup → p ∈ t.subs → p.data.1 = a →
    (preL (f p.kids) ++ X).Perm (preL p.kids ++ Y) → ((modAt a f t).pre ++ X).Perm (t.pre ++ Y)
  | node x ts, p, hn, hp, ha, hv => by
    rw [ids_node, List.nodup_cons] at hn
    rw [subs_eq] at hp
    simp only [modAt, pre, List.cons_append]
    refine List.Perm.cons _ ?_
    rcases List.mem_cons.mp hp with rfl | hp
    · simp only [data_node] at ha
      rw [if_pos ha]; exact hv
    · have : x.1 ≠ a := fun e => hn.1 (mem_idsL_iff.mpr ⟨p, hp, ha.trans e.symm⟩)
      rw [if_neg this]; exact modAtL_pre hn.2 hp ha hv
theorem modAtL_pre {a : ι} {f : List (RTree (ι × α)) → List (RTree (ι × α))} {X Y : List (ι × α)} : ∀ {ts : List (RTree (ι × α))} {p : RTree (ι × α)}, (idsL ts).Nodup → p ∈ subsL ts → p.data.1 = a →
    (preL (f p.kids) ++ X).Perm (preL p.kids ++ Y) → (preL (modAtL a f ts) ++ X).Perm (preL ts ++ Y)
  | [], p, hn, hp, ha, hv => by simp at hp
  | t :: ts, p, hn, hp, ha, hv => by
    rw [idsL_cons, List.nodup_append] at hn
    simp only [modAtL, preL, subsL_cons, List.mem_append, List.append_assoc] at hp ⊢
    rcases hp with hp | hp
    · have hat : a ∉ idsL ts := by
        intro h
        refine hn.2.2 a ?_ a h rfl
        rw [← ha]; exact subs_ids hp _ (root_mem_ids p)
      rw [modAtL_none ts hat]
      have h1 := modAt_pre (X := X) (Y := Y) hn.1 hp ha hv
      refine (List.perm_append_comm_assoc _ _ _).trans ((List.Perm.append_left _ h1).trans ?_)
      exact List.perm_append_comm_assoc _ _ _
    · have hat : a ∉ t.ids := by
        intro h
        refine hn.2.2 a h a ?_ rfl
        rw [← ha]; exact subsL_ids hp _ (root_mem_ids p)
      rw [modAt_none t hat]
      exact List.Perm.append_left _ (modAtL_pre hn.2.1 hp ha hv)
end

/-! ### A child is replaced -/

theorem sibAtL_eq {a : ι} {f : RTree (ι × α) → List (RTree (ι × α))} {ts : List (RTree (ι × α))} (h : ∀ t ∈ ts, t.data.1 ≠ a) : sibAtL a f ts = ts.map (sibAt a f) := by
  induction ts with
  | nil => rfl
  | cons t ts ih => simp only [sibAtL, List.map_cons]; rw [if_neg (h t (by simp)), ih fun t ht => h t (by simp [ht])]

mutual
theorem sibAt_none {a : ι} {f : RTree (ι × α) → List (RTree (ι × α))} : ∀ (t : RTree (ι × α)), a ∉ idsL t.kids → sibAt a f t = t
  | node x ts, h => by
    simp only [sibAt]; rw [sibAtL_none ts h]
theorem sibAtL_none {a : ι} {f : RTree (ι × α) → List (RTree (ι × α))} : ∀ (ts : List (RTree (ι × α))), a ∉ idsL ts → sibAtL a f ts = ts
  | [], h => rfl
  | t :: ts, h => by
    rw [idsL_cons, List.mem_append, not_or] at h
    simp only [sibAtL]
    rw [if_neg (fun e => h.1 (by rw [← e]; exact root_mem_ids t)), sibAt_none t (fun h' => h.1 (by rw [ids_kids]; exact List.mem_cons_of_mem _ h')), sibAtL_none ts h.2]
end

mutual
theorem sibAt_sub {a : ι} {f : RTree (ι × α) → List (RTree (ι × α))} : ∀ {t u : RTree (ι × α)}, u ∈ t.subs → a ∉ u.ids →
    u ∈ (sibAt a f t).subs ∨ ∃ p ∈ subsL t.kids, p.data.1 = a ∧ u ∈ p.subs
  | node x ts, u, h, hu => by
    rw [subs_eq] at h
    rcases List.mem_cons.mp h with rfl | h
    · left
      rw [sibAt_none _ (fun h' => hu (by rw [ids_kids]; exact List.mem_cons_of_mem _ h'))]
      exact self_mem_subs _
    · rcases sibAtL_sub' (a := a) (f := f) h hu with h | h
      · left; simp only [sibAt, subs_eq]; exact List.mem_cons_of_mem _ h
      · exact .inr h
theorem sibAtL_sub' {a : ι} {f : RTree (ι × α) → List (RTree (ι × α))} : ∀ {ts : List (RTree (ι × α))} {u : RTree (ι × α)}, u ∈ subsL ts → a ∉ u.ids →
    u ∈ subsL (sibAtL a f ts) ∨ ∃ p ∈ subsL ts, p.data.1 = a ∧ u ∈ p.subs
  | [], u, h, hu => by simp at h
  | t :: ts, u, h, hu => by
    simp only [sibAtL, subsL_cons, List.mem_append] at h ⊢
    by_cases hx : t.data.1 = a
    · rw [if_pos hx]
      rcases h with h | h
      · exact .inr ⟨t, .inl (self_mem_subs t), hx, h⟩
      · left; rw [subsL_append]; exact List.mem_append_right _ h
    · rw [if_neg hx, subsL_cons, List.mem_append]
      rcases h with h | h
      · rcases sibAt_sub (a := a) (f := f) h hu with h | ⟨p, h1, h2⟩
        · exact .inl (.inl h)
        · exact .inr ⟨p, .inl (by rw [subs_eq]; exact List.mem_cons_of_mem _ h1), h2⟩
      · rcases sibAtL_sub' (a := a) (f := f) h hu with h | ⟨p, h1, h2⟩
        · exact .inl (.inr h)
        · exact .inr ⟨p, .inr h1, h2⟩
end

mutual
/-- A subtree is still there, changed in the same way, unless it was that of the child or below it. -/
theorem sibAt_sub_mod {a : ι} {f : RTree (ι × α) → List (RTree (ι × α))} : ∀ {t u : RTree (ι × α)}, t.ids.Nodup → u ∈ t.subs →
    sibAt a f u ∈ (sibAt a f t).subs ∨ ∃ p ∈ subsL t.kids, p.data.1 = a ∧ u ∈ p.subs
  | node x ts, u, hn, h => by
    rw [subs_eq] at h
    rcases List.mem_cons.mp h with rfl | h
    · exact .inl (self_mem_subs _)
    · rw [ids_node, List.nodup_cons] at hn
      rcases sibAtL_sub_mod (a := a) (f := f) hn.2 h with h | h
      · left; simp only [sibAt, subs_eq]; exact List.mem_cons_of_mem _ h
      · exact .inr h
theorem sibAtL_sub_mod {a : ι} {f : RTree (ι × α) → List (RTree (ι × α))} : ∀ {ts : List (RTree (ι × α))} {u : RTree (ι × α)}, (idsL ts).Nodup → u ∈ subsL ts →
    sibAt a f u ∈ subsL (sibAtL a f ts) ∨ ∃ p ∈ subsL ts, p.data.1 = a ∧ u ∈ p.subs
  | [], u, hn, h => by simp at h
  | t :: ts, u, hn, h => by
    rw [idsL_cons, List.nodup_append] at hn
    simp only [sibAtL, subsL_cons, List.mem_append] at h ⊢
    by_cases hx : t.data.1 = a
    · rw [if_pos hx]
      rcases h with h | h
      · exact .inr ⟨t, .inl (self_mem_subs t), hx, h⟩
      · left
        have hat : a ∉ idsL u.kids := by
          intro h'
          refine hn.2.2 a (by rw [← hx]; exact root_mem_ids t) a (subsL_ids h a ?_) rfl
          rw [ids_kids]; exact List.mem_cons_of_mem _ h'
        rw [sibAt_none u hat, subsL_append]; exact List.mem_append_right _ h
    · rw [if_neg hx, subsL_cons, List.mem_append]
      rcases h with h | h
      · rcases sibAt_sub_mod (a := a) (f := f) hn.1 h with h | ⟨p, h1, h2⟩
        · exact .inl (.inl h)
        · exact .inr ⟨p, .inl (by rw [subs_eq]; exact List.mem_cons_of_mem _ h1), h2⟩
      · rcases sibAtL_sub_mod (a := a) (f := f) hn.2.1 h with h | ⟨p, h1, h2⟩
        · exact .inl (.inr h)
        · exact .inr ⟨p, .inr h1, h2⟩
end

mutual
theorem sibAt_new {a : ι} {f : RTree (ι × α) → List (RTree (ι × α))} : ∀ {t p v : RTree (ι × α)}, t.ids.Nodup → p ∈ subsL t.kids → p.data.1 = a →
    v ∈ subsL (f p) → v ∈ (sibAt a f t).subs
  | node x ts, p, v, hn, hp, ha, hv => by
    rw [ids_node, List.nodup_cons] at hn
    simp only [sibAt, subs_eq]
    exact List.mem_cons_of_mem _ (sibAtL_new hn.2 hp ha hv)
theorem sibAtL_new {a : ι} {f : RTree (ι × α) → List (RTree (ι × α))} : ∀ {ts : List (RTree (ι × α))} {p v : RTree (ι × α)}, (idsL ts).Nodup → p ∈ subsL ts → p.data.1 = a →
    v ∈ subsL (f p) → v ∈ subsL (sibAtL a f ts)
  | [], p, v, hn, hp, ha, hv => by simp at hp
  | t :: ts, p, v, hn, hp, ha, hv => by
    have hu := hn
    rw [idsL_cons, List.nodup_append] at hn
    simp only [sibAtL]
    by_cases hx : t.data.1 = a
    · rw [if_pos hx]
      have : t = p := sub_unique hu (root_mem_subsL (by simp)) hp (hx.trans ha.symm)
      subst this
      rw [subsL_append]; exact List.mem_append_left _ hv
    · rw [if_neg hx]
      simp only [subsL_cons, List.mem_append] at hp ⊢
      refine hp.imp (fun hp => ?_) (fun hp => sibAtL_new hn.2.1 hp ha hv)
      rw [subs_eq] at hp
      rcases List.mem_cons.mp hp with e | hp
      · subst e; exact absurd ha hx
      · exact sibAt_new hn.1 hp ha hv
end

mutual
theorem sibAt_pre {a : ι} {f : RTree (ι × α) → List (RTree (ι × α))} {X Y : List (ι × α)} : ∀ {t p : RTree (ι × α)}, t.ids.Nodup → p ∈ subsL t.kids → p.data.1 = a →
    (preL (f p) ++ X).Perm (p.pre ++ Y) → ((sibAt a f t).pre ++ X).Perm (t.pre ++ Y)
  | node x ts, p, hn, hp, ha, hv => by
    rw [ids_node, List.nodup_cons] at hn
    simp only [sibAt, pre, List.cons_append]
    exact List.Perm.cons _ (sibAtL_pre hn.2 hp ha hv)
theorem sibAtL_pre {a : ι} {f : RTree (ι × α) → List (RTree (ι × α))} {X Y : List (ι × α)} : ∀ {ts : List (RTree (ι × α))} {p : RTree (ι × α)}, (idsL ts).Nodup → p ∈ subsL ts → p.data.1 = a →
    (preL (f p) ++ X).Perm (p.pre ++ Y) → (preL (sibAtL a f ts) ++ X).Perm (preL ts ++ Y)
  | [], p, hn, hp, ha, hv => by simp at hp
  | t :: ts, p, hn, hp, ha, hv => by
    have hu := hn
    rw [idsL_cons, List.nodup_append] at hn
    simp only [sibAtL]
    have mv : ∀ (A B : List (ι × α)), (A ++ X).Perm (B ++ Y) → (A ++ (preL ts ++ X)).Perm (B ++ (preL ts ++ Y)) := fun A B h =>
      (List.perm_append_comm_assoc _ _ _).trans ((List.Perm.append_left _ h).trans (List.perm_append_comm_assoc _ _ _))
    by_cases hx : t.data.1 = a
    · rw [if_pos hx]
      have : t = p := sub_unique hu (root_mem_subsL (by simp)) hp (hx.trans ha.symm)
      subst this
      simp only [preL, preL_append, List.append_assoc]
      exact mv _ _ hv
    · rw [if_neg hx]
      simp only [subsL_cons, List.mem_append, preL, List.append_assoc] at hp ⊢
      rcases hp with hp | hp
      · have hat : a ∉ idsL ts := by
          intro h
          refine hn.2.2 a ?_ a h rfl
          rw [← ha]; exact subs_ids hp _ (root_mem_ids p)
        rw [sibAtL_none ts hat]
        rw [subs_eq] at hp
        rcases List.mem_cons.mp hp with e | hp
        · subst e; exact absurd ha hx
        · exact mv _ _ (sibAt_pre hn.1 hp ha hv)
      · have hat : a ∉ idsL t.kids := by
          intro h
          refine hn.2.2 a (by rw [ids_kids]; exact List.mem_cons_of_mem _ h) a ?_ rfl
          rw [← ha]; exact subsL_ids hp _ (root_mem_ids p)
        rw [sibAt_none t hat]
        exact List.Perm.append_left _ (sibAtL_pre hn.2.1 hp ha hv)
end

/-! ### A data item is replaced -/

theorem setAtL_eq (a : ι) (d : α) (ts : List (RTree (ι × α))) : setAtL a d ts = ts.map (setAt a d) := by
  induction ts with
  | nil => rfl
  | cons t ts ih => simp [setAtL, ih]

theorem setAt_id (a : ι) (d : α) (t : RTree (ι × α)) : (setAt a d t).data.1 = t.data.1 := by
  cases t with
  | node x ts =>
    simp only [setAt, data_node]
    split
    · rename_i h; exact h.symm
    · rfl

mutual
theorem setAt_ids (a : ι) (d : α) : ∀ (t : RTree (ι × α)), (setAt a d t).ids = t.ids
  | node x ts => by
    have := setAt_id a d (node x ts)
    simp only [setAt, ids_node, data_node, List.cons.injEq] at this ⊢
    exact ⟨this, setAtL_ids a d ts⟩
theorem setAtL_ids (a : ι) (d : α) : ∀ (ts : List (RTree (ι × α))), idsL (setAtL a d ts) = idsL ts
  | [] => rfl
  | t :: ts => by simp [setAtL, setAt_ids a d t, setAtL_ids a d ts]
end

mutual
theorem setAt_subs (a : ι) (d : α) : ∀ (t : RTree (ι × α)), (setAt a d t).subs = t.subs.map (setAt a d)
  | node x ts => by simp only [subs_eq, setAt, kids_node, List.map_cons, setAtL_subs a d ts]
theorem setAtL_subs (a : ι) (d : α) : ∀ (ts : List (RTree (ι × α))), subsL (setAtL a d ts) = (subsL ts).map (setAt a d)
  | [] => rfl
  | t :: ts => by simp [setAtL, setAt_subs a d t, setAtL_subs a d ts]
end

mutual
theorem setAt_none {a : ι} {d : α} : ∀ (t : RTree (ι × α)), a ∉ t.ids → setAt a d t = t
  | node x ts, h => by
    rw [ids_node, List.mem_cons, not_or] at h
    simp only [setAt]
    rw [if_neg (fun e => h.1 e.symm), setAtL_none ts h.2]
theorem setAtL_none {a : ι} {d : α} : ∀ (ts : List (RTree (ι × α))), a ∉ idsL ts → setAtL a d ts = ts
  | [], h => rfl
  | t :: ts, h => by
    rw [idsL_cons, List.mem_append, not_or] at h
    simp only [setAtL]
    rw [setAt_none t h.1, setAtL_none ts h.2]
end

mutual
theorem setAt_pre {a : ι} {d : α} : ∀ {t p : RTree (ι × α)}, t.ids.Nodup → p ∈ t.subs → p.data.1 = a →
    ((setAt a d t).pre ++ [p.data]).Perm (t.pre ++ [(a, d)])
  | node x ts, p, hn, hp, ha => by
    rw [ids_node, List.nodup_cons] at hn
    rw [subs_eq] at hp
    simp only [setAt, pre, List.cons_append]
    rcases List.mem_cons.mp hp with rfl | hp
    · simp only [data_node] at ha ⊢
      rw [if_pos ha, setAtL_none ts (by rw [← ha]; exact hn.1)]
      have key : ∀ (p q : ι × α) (l : List (ι × α)), (p :: (l ++ [q])).Perm (q :: (l ++ [p])) := fun p q l =>
        (List.Perm.cons _ (List.perm_append_singleton _ _)).trans ((List.Perm.swap _ _ _).trans (List.Perm.cons _ (List.perm_append_singleton _ _).symm))
      exact key _ _ _
    · have : x.1 ≠ a := fun e => hn.1 (mem_idsL_iff.mpr ⟨p, hp, ha.trans e.symm⟩)
      rw [if_neg this]; exact List.Perm.cons _ (setAtL_pre hn.2 hp ha)
theorem setAtL_pre {a : ι} {d : α} : ∀ {ts : List (RTree (ι × α))} {p : RTree (ι × α)}, (idsL ts).Nodup → p ∈ subsL ts → p.data.1 = a →
    (preL (setAtL a d ts) ++ [p.data]).Perm (preL ts ++ [(a, d)])
  | [], p, hn, hp, ha => by simp at hp
  | t :: ts, p, hn, hp, ha => by
    rw [idsL_cons, List.nodup_append] at hn
    simp only [setAtL, preL, subsL_cons, List.mem_append, List.append_assoc] at hp ⊢
    rcases hp with hp | hp
    · have hat : a ∉ idsL ts := by
        intro h
        refine hn.2.2 a ?_ a h rfl
        rw [← ha]; exact subs_ids hp _ (root_mem_ids p)
      rw [setAtL_none ts hat]
      refine (List.perm_append_comm_assoc _ _ _).trans ((List.Perm.append_left _ (setAt_pre hn.1 hp ha)).trans ?_)
      exact List.perm_append_comm_assoc _ _ _
    · have hat : a ∉ t.ids := by
        intro h
        refine hn.2.2 a h a ?_ rfl
        rw [← ha]; exact subsL_ids hp _ (root_mem_ids p)
      rw [setAt_none t hat]
      exact List.Perm.append_left _ (setAtL_pre hn.2.1 hp ha)
end
end

/-! ### What is left of a tree -/

mutual
theorem survivors_perm (held : ι → Bool) : ∀ (t : RTree (ι × α)), (preL (survivors held t) ++ released held t).Perm t.pre
  | node x ts => by
    simp only [survivors, released]
    split
    · simp [preL]
    · rw [← List.append_assoc]
      exact (List.perm_append_comm).trans (List.Perm.cons _ (survivorsL_perm held ts))
theorem survivorsL_perm (held : ι → Bool) : ∀ (ts : List (RTree (ι × α))), (preL (survivorsL held ts) ++ releasedL held ts).Perm (preL ts)
  | [] => by simp [survivorsL, releasedL]
  | t :: ts => by
    simp only [survivorsL, releasedL, preL_append, preL]
    refine List.Perm.trans ?_ ((survivors_perm held t).append (survivorsL_perm held ts))
    rw [List.append_assoc, List.append_assoc]
    exact List.Perm.append_left _ (List.perm_append_comm_assoc _ _ _)
end

mutual
theorem survivor_of (held : ι → Bool) : ∀ {t u : RTree (ι × α)}, u ∈ t.subs → held u.data.1 = true → ∃ s ∈ survivors held t, u ∈ s.subs
  | node x ts, u, h, hu => by
    simp only [survivors]
    split
    · exact ⟨_, by simp, h⟩
    · rename_i hx
      rw [subs_eq] at h
      rcases List.mem_cons.mp h with rfl | h
      · exact absurd hu hx
      · exact survivorL_of held h hu
theorem survivorL_of (held : ι → Bool) : ∀ {ts : List (RTree (ι × α))} {u : RTree (ι × α)}, u ∈ subsL ts → held u.data.1 = true → ∃ s ∈ survivorsL held ts, u ∈ s.subs
  | [], u, h, hu => by simp at h
  | t :: ts, u, h, hu => by
    simp only [subsL_cons, List.mem_append, survivorsL] at h ⊢
    rcases h with h | h
    · obtain ⟨s, h1, h2⟩ := survivor_of held h hu
      exact ⟨s, .inl h1, h2⟩
    · obtain ⟨s, h1, h2⟩ := survivorL_of held h hu
      exact ⟨s, .inr h1, h2⟩
end

mutual
theorem survivors_sub (held : ι → Bool) : ∀ {t s : RTree (ι × α)}, s ∈ survivors held t → s ∈ t.subs ∧ held s.data.1 = true
  | node x ts, s, h => by
    simp only [survivors] at h
    split at h
    · rename_i hx
      simp only [List.mem_singleton] at h
      subst h; exact ⟨self_mem_subs _, hx⟩
    · obtain ⟨h1, h2⟩ := survivorsL_sub held h
      exact ⟨by rw [subs_eq]; exact List.mem_cons_of_mem _ h1, h2⟩
theorem survivorsL_sub (held : ι → Bool) : ∀ {ts : List (RTree (ι × α))} {s : RTree (ι × α)}, s ∈ survivorsL held ts → s ∈ subsL ts ∧ held s.data.1 = true
  | [], s, h => by simp [survivorsL] at h
  | t :: ts, s, h => by
    simp only [survivorsL, List.mem_append, subsL_cons] at h ⊢
    rcases h with h | h
    · obtain ⟨h1, h2⟩ := survivors_sub held h
      exact ⟨.inl h1, h2⟩
    · obtain ⟨h1, h2⟩ := survivorsL_sub held h
      exact ⟨.inr h1, h2⟩
end

end RTree
end Trees
