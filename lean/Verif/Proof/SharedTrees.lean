import Verif.Proof.RcCoherent
import Verif.Spec.SharedStore
import Mathlib.Data.List.Perm.Basic
import Mathlib.Data.List.Nodup
/-
Trees whose nodes carry identities: subtrees, relabelling, and how changes at one node act on them. No machine.
-/
namespace Trees
namespace RTree
set_option linter.unusedSimpArgs false
set_option linter.unusedVariables false
variable {α β ι κ : Type}

/-! ### Subtrees -/

theorem subs_eq (t : RTree β) : t.subs = t :: subsL t.kids := by cases t; rfl

@[simp] theorem subsL_nil : subsL ([] : List (RTree β)) = [] := rfl
@[simp] theorem subsL_cons (t : RTree β) (ts : List (RTree β)) : subsL (t :: ts) = t.subs ++ subsL ts := rfl
@[simp] theorem subsL_append (xs ys : List (RTree β)) : subsL (xs ++ ys) = subsL xs ++ subsL ys := by
  induction xs with
  | nil => rfl
  | cons x xs ih => simp [ih]

theorem idsL_append (xs ys : List (RTree (ι × α))) : idsL (xs ++ ys) = idsL xs ++ idsL ys := by simp [idsL]

theorem mem_subsL {s : RTree β} {ts : List (RTree β)} : s ∈ subsL ts ↔ ∃ t ∈ ts, s ∈ t.subs := by
  induction ts with
  | nil => simp
  | cons t ts ih => simp [ih]

theorem mem_idsL {x : ι} {ts : List (RTree (ι × α))} : x ∈ idsL ts ↔ ∃ t ∈ ts, x ∈ t.ids := by
  induction ts with
  | nil => simp
  | cons t ts ih => simp [ih]

theorem root_mem_subsL {t : RTree β} {ts : List (RTree β)} (h : t ∈ ts) : t ∈ subsL ts := mem_subsL.mpr ⟨t, h, self_mem_subs t⟩

mutual
theorem subs_data : ∀ (t : RTree β), t.subs.map data = t.pre
  | node x ts => by simp [subs, pre, data, subsL_data ts]
theorem subsL_data : ∀ (ts : List (RTree β)), (subsL ts).map data = preL ts
  | [] => rfl
  | t :: ts => by simp [preL, subs_data t, subsL_data ts]
end

theorem subsL_ids_eq (ts : List (RTree (ι × α))) : (subsL ts).map (fun u => u.data.1) = idsL ts := by
  rw [idsL, ← subsL_data]; simp

/-- The subtree of a node is determined by its identity. -/
theorem sub_unique {F : List (RTree (ι × α))} (hn : (idsL F).Nodup) {u v : RTree (ι × α)} (hu : u ∈ subsL F) (hv : v ∈ subsL F)
    (h : u.data.1 = v.data.1) : u = v := by
  rw [← subsL_ids_eq] at hn
  exact List.inj_on_of_nodup_map hn hu hv h

theorem mem_idsL_iff {F : List (RTree (ι × α))} {i : ι} : i ∈ idsL F ↔ ∃ u ∈ subsL F, u.data.1 = i := by
  rw [← subsL_ids_eq]; simp

mutual
theorem subs_trans : ∀ {t s u : RTree β}, s ∈ t.subs → u ∈ s.subs → u ∈ t.subs
  | node x ts, s, u, h, hu => by
    rw [subs_eq] at h ⊢
    rcases List.mem_cons.mp h with rfl | h
    · rw [subs_eq] at hu; exact hu
    · exact List.mem_cons_of_mem _ (subsL_trans h hu)
theorem subsL_trans : ∀ {ts : List (RTree β)} {s u : RTree β}, s ∈ subsL ts → u ∈ s.subs → u ∈ subsL ts
  | [], s, u, h, hu => by simp at h
  | t :: ts, s, u, h, hu => by
    simp only [subsL_cons, List.mem_append] at h ⊢
    exact h.imp (fun h => subs_trans h hu) (fun h => subsL_trans h hu)
end

theorem kid_mem {F : List (RTree β)} {p c : RTree β} (hp : p ∈ subsL F) (hc : c ∈ p.kids) : c ∈ subsL F := by
  refine subsL_trans hp ?_
  rw [subs_eq]
  exact List.mem_cons_of_mem _ (root_mem_subsL hc)

mutual
theorem subs_perm : ∀ (t : RTree β), (subsL t.kids).Perm (t.subs.flatMap kids)
  | node x ts => by
    simp only [subs_eq, kids_node, List.flatMap_cons]
    exact subsL_perm ts
/-- Every subtree is a root or a child of exactly one subtree. -/
theorem subsL_perm : ∀ (ts : List (RTree β)), (subsL ts).Perm (ts ++ (subsL ts).flatMap kids)
  | [] => by simp
  | t :: ts => by
    simp only [subsL_cons, List.flatMap_append, List.cons_append]
    rw [show t.subs ++ subsL ts = t :: (subsL t.kids ++ subsL ts) by rw [subs_eq]; rfl]
    refine List.Perm.cons _ ?_
    refine ((subs_perm t).append (subsL_perm ts)).trans ?_
    exact List.perm_append_comm_assoc _ _ _
end

theorem kidIds_nodup {F : List (RTree (ι × α))} (hn : (idsL F).Nodup) :
    (F.map (fun u => u.data.1) ++ (subsL F).flatMap fun p => p.kids.map fun c => c.data.1).Nodup := by
  rw [← subsL_ids_eq] at hn
  have := ((subsL_perm F).map fun u => u.data.1).nodup_iff.mp hn
  simpa [List.map_flatMap] using this

/-- A node has at most one parent. -/
theorem parent_unique {F : List (RTree (ι × α))} (hn : (idsL F).Nodup) {p q : RTree (ι × α)} (hp : p ∈ subsL F) (hq : q ∈ subsL F)
    {c d : RTree (ι × α)} (hc : c ∈ p.kids) (hd : d ∈ q.kids) (h : c.data.1 = d.data.1) : p = q := by
  have h1 := (List.nodup_append.mp (kidIds_nodup hn)).2.1
  by_contra hne
  have h2 : ∀ l : List (RTree (ι × α)), (l.flatMap fun p => p.kids.map fun c => c.data.1).Nodup → p ∈ l → q ∈ l → False := by
    intro l
    induction l with
    | nil => intro _ h; simp at h
    | cons a l ih =>
      intro hn h1 h2
      rw [List.flatMap_cons, List.nodup_append] at hn
      rcases List.mem_cons.mp h1 with e1 | g1 <;> rcases List.mem_cons.mp h2 with e2 | g2
      · exact hne (e1.trans e2.symm)
      · subst e1
        refine hn.2.2 c.data.1 (List.mem_map_of_mem hc) d.data.1 ?_ h
        exact List.mem_flatMap.mpr ⟨q, g2, List.mem_map_of_mem hd⟩
      · subst e2
        refine hn.2.2 d.data.1 (List.mem_map_of_mem hd) c.data.1 ?_ h.symm
        exact List.mem_flatMap.mpr ⟨p, g1, List.mem_map_of_mem hc⟩
      · exact ih hn.2.1 g1 g2
  exact h2 _ h1 hp hq

theorem root_no_parent {F : List (RTree (ι × α))} (hn : (idsL F).Nodup) {t p c : RTree (ι × α)} (ht : t ∈ F) (hp : p ∈ subsL F) (hc : c ∈ p.kids) :
    t.data.1 ≠ c.data.1 := by
  intro h
  refine (List.nodup_append.mp (kidIds_nodup hn)).2.2 t.data.1 (List.mem_map_of_mem ht) c.data.1 ?_ h
  exact List.mem_flatMap.mpr ⟨p, hp, List.mem_map_of_mem hc⟩

theorem root_or_kid {F : List (RTree β)} {u : RTree β} (hu : u ∈ subsL F) : u ∈ F ∨ ∃ p ∈ subsL F, u ∈ p.kids := by
  have := (subsL_perm F).mem_iff.mp hu
  simpa using this

/-- Two different trees of the list have no node in common. -/
theorem tree_unique {F : List (RTree (ι × α))} (hn : (idsL F).Nodup) {s t : RTree (ι × α)} (hs : s ∈ F) (ht : t ∈ F) {x : ι}
    (h1 : x ∈ s.ids) (h2 : x ∈ t.ids) : s = t := by
  induction F with
  | nil => simp at hs
  | cons a F ih =>
    rw [idsL_cons, List.nodup_append] at hn
    rcases List.mem_cons.mp hs with e1 | gs <;> rcases List.mem_cons.mp ht with e2 | gt
    · exact e1.trans e2.symm
    · subst e1; exact absurd rfl (hn.2.2 x h1 x (mem_idsL.mpr ⟨t, gt, h2⟩))
    · subst e2; exact absurd rfl (hn.2.2 x h2 x (mem_idsL.mpr ⟨s, gs, h1⟩))
    · exact ih hn.2.1 gs gt

theorem ids_nodup_of {F : List (RTree (ι × α))} (hn : (idsL F).Nodup) {t : RTree (ι × α)} (ht : t ∈ F) : t.ids.Nodup := by
  induction F with
  | nil => simp at ht
  | cons a F ih =>
    rw [idsL_cons, List.nodup_append] at hn
    rcases List.mem_cons.mp ht with rfl | ht
    · exact hn.1
    · exact ih hn.2.1 ht

/-- The identity of a proper descendant is not that of the root. -/
theorem ids_kids (t : RTree (ι × α)) : t.ids = t.data.1 :: idsL t.kids := by cases t; simp

mutual
theorem subs_nodup : ∀ {t s : RTree (ι × α)}, t.ids.Nodup → s ∈ t.subs → s.ids.Nodup
  | node x ts, s, hn, h => by
    rw [subs_eq] at h
    rcases List.mem_cons.mp h with rfl | h
    · exact hn
    · rw [ids_node, List.nodup_cons] at hn; exact subsL_nodup hn.2 h
theorem subsL_nodup : ∀ {ts : List (RTree (ι × α))} {s : RTree (ι × α)}, (idsL ts).Nodup → s ∈ subsL ts → s.ids.Nodup
  | [], s, hn, h => by simp at h
  | t :: ts, s, hn, h => by
    rw [idsL_cons, List.nodup_append] at hn
    simp only [subsL_cons, List.mem_append] at h
    exact h.elim (fun h => subs_nodup hn.1 h) (fun h => subsL_nodup hn.2.1 h)
end

/-! ### Relabelling -/

/-- New identities. -/
def relab (φ : ι → κ) (t : RTree (ι × α)) : RTree (κ × α) := t.map fun x => (φ x.1, x.2)
def relabL (φ : ι → κ) (ts : List (RTree (ι × α))) : List (RTree (κ × α)) := mapL (fun x => (φ x.1, x.2)) ts

@[simp] theorem relab_node (φ : ι → κ) (x : ι × α) (ts) : relab φ (node x ts) = node (φ x.1, x.2) (relabL φ ts) := rfl
@[simp] theorem relabL_nil (φ : ι → κ) : relabL φ ([] : List (RTree (ι × α))) = [] := rfl
@[simp] theorem relabL_cons (φ : ι → κ) (t : RTree (ι × α)) (ts) : relabL φ (t :: ts) = relab φ t :: relabL φ ts := rfl
theorem relabL_eq (φ : ι → κ) (ts : List (RTree (ι × α))) : relabL φ ts = ts.map (relab φ) := mapL_eq _ _
@[simp] theorem relabL_append (φ : ι → κ) (xs ys : List (RTree (ι × α))) : relabL φ (xs ++ ys) = relabL φ xs ++ relabL φ ys := mapL_append _ _ _

@[simp] theorem relab_data (φ : ι → κ) (t : RTree (ι × α)) : (relab φ t).data = (φ t.data.1, t.data.2) := by cases t; rfl
@[simp] theorem relab_kids (φ : ι → κ) (t : RTree (ι × α)) : (relab φ t).kids = relabL φ t.kids := by cases t; rfl
theorem relab_pre (φ : ι → κ) (t : RTree (ι × α)) : (relab φ t).pre = t.pre.map fun x => (φ x.1, x.2) := pre_map' _ t
theorem relabL_preL (φ : ι → κ) (ts : List (RTree (ι × α))) : preL (relabL φ ts) = (preL ts).map fun x => (φ x.1, x.2) := preL_map' _ ts
@[simp] theorem relab_ids (φ : ι → κ) (t : RTree (ι × α)) : (relab φ t).ids = t.ids.map φ := by simp [ids, relab_pre]
@[simp] theorem relabL_idsL (φ : ι → κ) (ts : List (RTree (ι × α))) : idsL (relabL φ ts) = (idsL ts).map φ := by simp [idsL, relabL_preL]

mutual
theorem map_map' {γ δ ε : Type} (f : γ → δ) (g : δ → ε) : ∀ (t : RTree γ), (t.map f).map g = t.map (g ∘ f)
  | node x ts => by simp [mapL_map' f g ts]
theorem mapL_map' {γ δ ε : Type} (f : γ → δ) (g : δ → ε) : ∀ (ts : List (RTree γ)), mapL g (mapL f ts) = mapL (g ∘ f) ts
  | [] => by simp
  | t :: ts => by simp [map_map' f g t, mapL_map' f g ts]
end

@[simp] theorem relab_plain (φ : ι → κ) (t : RTree (ι × α)) : (relab φ t).plain = t.plain := by
  simp only [plain, relab, map_map']; rfl

mutual
theorem map_count' {γ δ : Type} (f : γ → δ) : ∀ (t : RTree γ), (t.map f).count = t.count
  | node x ts => by simp [mapL_count' f ts]
theorem mapL_count' {γ δ : Type} (f : γ → δ) : ∀ (ts : List (RTree γ)), countL (mapL f ts) = countL ts
  | [] => by simp
  | t :: ts => by simp [map_count' f t, mapL_count' f ts]
end
@[simp] theorem relab_count (φ : ι → κ) (t : RTree (ι × α)) : (relab φ t).count = t.count := map_count' _ t

mutual
theorem relab_subs (φ : ι → κ) : ∀ (t : RTree (ι × α)), (relab φ t).subs = t.subs.map (relab φ)
  | node x ts => by simp [subs_eq, relabL_subsL φ ts]
theorem relabL_subsL (φ : ι → κ) : ∀ (ts : List (RTree (ι × α))), subsL (relabL φ ts) = (subsL ts).map (relab φ)
  | [] => rfl
  | t :: ts => by simp [relab_subs φ t, relabL_subsL φ ts]
end

mutual
theorem relab_congr {φ ψ : ι → κ} : ∀ (t : RTree (ι × α)), (∀ x ∈ t.ids, φ x = ψ x) → relab φ t = relab ψ t
  | node x ts, h => by
    simp only [relab_node]
    rw [h x.1 (by simp), relabL_congr ts fun y hy => h y (by simp [hy])]
theorem relabL_congr {φ ψ : ι → κ} : ∀ (ts : List (RTree (ι × α))), (∀ x ∈ idsL ts, φ x = ψ x) → relabL φ ts = relabL ψ ts
  | [], h => rfl
  | t :: ts, h => by
    simp only [relabL_cons]
    rw [relab_congr t fun y hy => h y (by simp [hy]), relabL_congr ts fun y hy => h y (by simp [hy])]
end

section
variable [DecidableEq ι] [DecidableEq κ]

mutual
theorem relab_modAt {φ : ι → κ} {a : ι} {f : List (RTree (ι × α)) → List (RTree (ι × α))} {g : List (RTree (κ × α)) → List (RTree (κ × α))}
    (hf : ∀ ks, g (relabL φ ks) = relabL φ (f ks)) : ∀ (t : RTree (ι × α)), (∀ x ∈ t.ids, φ x = φ a → x = a) →
    modAt (φ a) g (relab φ t) = relab φ (modAt a f t)
  | node x ts, h => by
    simp only [relab_node, modAt, node.injEq, true_and]
    by_cases hx : x.1 = a
    · rw [if_pos (by rw [hx]), if_pos hx, hf]
    · rw [if_neg (fun e => hx (h x.1 (by simp) e)), if_neg hx, relab_modAtL hf ts fun y hy => h y (by simp [hy])]
theorem relab_modAtL {φ : ι → κ} {a : ι} {f : List (RTree (ι × α)) → List (RTree (ι × α))} {g : List (RTree (κ × α)) → List (RTree (κ × α))}
    (hf : ∀ ks, g (relabL φ ks) = relabL φ (f ks)) : ∀ (ts : List (RTree (ι × α))), (∀ x ∈ idsL ts, φ x = φ a → x = a) →
    modAtL (φ a) g (relabL φ ts) = relabL φ (modAtL a f ts)
  | [], h => rfl
  | t :: ts, h => by
    simp only [relabL_cons, modAtL]
    rw [relab_modAt hf t fun y hy => h y (by simp [hy]), relab_modAtL hf ts fun y hy => h y (by simp [hy])]
end

mutual
theorem relab_sibAt {φ : ι → κ} {a : ι} {f : RTree (ι × α) → List (RTree (ι × α))} {g : RTree (κ × α) → List (RTree (κ × α))}
    (hf : ∀ t, g (relab φ t) = relabL φ (f t)) : ∀ (t : RTree (ι × α)), (∀ x ∈ t.ids, φ x = φ a → x = a) →
    sibAt (φ a) g (relab φ t) = relab φ (sibAt a f t)
  | node x ts, h => by
    simp only [relab_node, sibAt, node.injEq, true_and]
    exact relab_sibAtL hf ts fun y hy => h y (by simp [hy])
theorem relab_sibAtL {φ : ι → κ} {a : ι} {f : RTree (ι × α) → List (RTree (ι × α))} {g : RTree (κ × α) → List (RTree (κ × α))}
    (hf : ∀ t, g (relab φ t) = relabL φ (f t)) : ∀ (ts : List (RTree (ι × α))), (∀ x ∈ idsL ts, φ x = φ a → x = a) →
    sibAtL (φ a) g (relabL φ ts) = relabL φ (sibAtL a f ts)
  | [], h => rfl
  | t :: ts, h => by
    simp only [relabL_cons, sibAtL, relab_data]
    by_cases hx : t.data.1 = a
    · rw [if_pos (by rw [hx]), if_pos hx, hf, relabL_append]
    · rw [if_neg (fun e => hx (h t.data.1 (by simp [root_mem_ids]) e)), if_neg hx, relabL_cons,
        relab_sibAt hf t fun y hy => h y (by simp [hy]), relab_sibAtL hf ts fun y hy => h y (by simp [hy])]
end

mutual
theorem relab_setAt {φ : ι → κ} {a : ι} {d : α} : ∀ (t : RTree (ι × α)), (∀ x ∈ t.ids, φ x = φ a → x = a) →
    setAt (φ a) d (relab φ t) = relab φ (setAt a d t)
  | node x ts, h => by
    simp only [relab_node, setAt, node.injEq]
    refine ⟨?_, relab_setAtL ts fun y hy => h y (by simp [hy])⟩
    by_cases hx : x.1 = a
    · rw [if_pos (by rw [hx]), if_pos hx]
    · rw [if_neg (fun e => hx (h x.1 (by simp) e)), if_neg hx]
theorem relab_setAtL {φ : ι → κ} {a : ι} {d : α} : ∀ (ts : List (RTree (ι × α))), (∀ x ∈ idsL ts, φ x = φ a → x = a) →
    setAtL (φ a) d (relabL φ ts) = relabL φ (setAtL a d ts)
  | [], h => rfl
  | t :: ts, h => by
    simp only [relabL_cons, setAtL]
    rw [relab_setAt t fun y hy => h y (by simp [hy]), relab_setAtL ts fun y hy => h y (by simp [hy])]
end
end

mutual
theorem relab_released {φ : ι → κ} {p : ι → Bool} {q : κ → Bool} : ∀ (t : RTree (ι × α)), (∀ x ∈ t.ids, q (φ x) = p x) →
    (released q (relab φ t)).map Prod.snd = (released p t).map Prod.snd
  | node x ts, h => by
    simp only [relab_node, released]
    rw [h x.1 (by simp)]
    split
    · rfl
    · simp [relab_releasedL ts fun y hy => h y (by simp [hy])]
theorem relab_releasedL {φ : ι → κ} {p : ι → Bool} {q : κ → Bool} : ∀ (ts : List (RTree (ι × α))), (∀ x ∈ idsL ts, q (φ x) = p x) →
    (releasedL q (relabL φ ts)).map Prod.snd = (releasedL p ts).map Prod.snd
  | [], h => rfl
  | t :: ts, h => by
    simp only [relabL_cons, releasedL, List.map_append]
    rw [relab_released t fun y hy => h y (by simp [hy]), relab_releasedL ts fun y hy => h y (by simp [hy])]
end

/-! ### Numbering -/

mutual
theorem label_plain : ∀ (n : Nat) (t : RTree α), (label n t).plain = t
  | n, node d ts => by simp [label, plain]; exact labelL_plain (n + 1) ts
theorem labelL_plain : ∀ (n : Nat) (ts : List (RTree α)), mapL Prod.snd (labelL n ts) = ts
  | n, [] => rfl
  | n, t :: ts => by
    simp only [labelL, mapL, List.cons.injEq]
    exact ⟨label_plain n t, labelL_plain _ ts⟩
end

mutual
theorem label_ids : ∀ (n : Nat) (t : RTree α), (label n t).ids = List.range' n t.count
  | n, node d ts => by simp [label, labelL_ids (n + 1) ts, List.range'_succ]
theorem labelL_ids : ∀ (n : Nat) (ts : List (RTree α)), idsL (labelL n ts) = List.range' n (countL ts)
  | n, [] => rfl
  | n, t :: ts => by
    simp only [labelL, idsL_cons, label_ids n t, labelL_ids _ ts, countL]
    rw [List.range'_append_1]
end

theorem label_root (n : Nat) (t : RTree α) : (label n t).data.1 = n := by cases t; rfl

mutual
theorem pre_len : ∀ (t : RTree β), t.pre.length = t.count
  | node d ts => by simp [preL_len ts]
theorem preL_len : ∀ (ts : List (RTree β)), (preL ts).length = countL ts
  | [] => rfl
  | t :: ts => by simp [pre_len t, preL_len ts]
end

mutual
theorem relab_label {φ : Nat → κ} : ∀ (n : Nat) (t : RTree (κ × α)), (List.range' n t.count).map φ = t.ids → relab φ (label n t.plain) = t
  | n, node x ts, h => by
    simp only [plain, RTree.map, label, relab_node]
    simp only [count, List.range'_succ, List.map_cons, ids_node, List.cons.injEq] at h
    rw [h.1, relab_labelL (n + 1) ts h.2]
theorem relab_labelL {φ : Nat → κ} : ∀ (n : Nat) (ts : List (RTree (κ × α))), (List.range' n (countL ts)).map φ = idsL ts →
    relabL φ (labelL n (mapL Prod.snd ts)) = ts
  | n, [], h => rfl
  | n, t :: ts, h => by
    simp only [mapL, labelL, relabL_cons, map_count']
    simp only [countL, ← List.range'_append_1, List.map_append, idsL_cons] at h
    have h1 : ((List.range' n t.count).map φ).length = t.ids.length := by
      rw [ids, List.length_map, List.length_map, pre_len]; simp
    obtain ⟨g1, g2⟩ := List.append_inj h h1
    rw [show RTree.map Prod.snd t = t.plain from rfl, relab_label n t g1, relab_labelL _ ts g2]
end

end RTree
end Trees
