import Verif.Proof.RcSafe
/-
All handles show parts of the same trees; what a drop releases, stated without recursion.
-/
namespace Trees
set_option linter.unusedSimpArgs false
set_option linter.unusedVariables false
variable {α β : Type}
open Classical

/-! ### Trees with identities -/

namespace RTree
variable {ι : Type}

def idsL (ts : List (RTree (ι × α))) : List ι := (preL ts).map Prod.fst

@[simp] theorem ids_node (x : ι × α) (ts : List (RTree (ι × α))) : (node x ts).ids = x.1 :: idsL ts := by simp [ids, idsL, pre]
@[simp] theorem idsL_nil : idsL ([] : List (RTree (ι × α))) = [] := rfl
@[simp] theorem idsL_cons (t : RTree (ι × α)) (ts : List (RTree (ι × α))) : idsL (t :: ts) = t.ids ++ idsL ts := by simp [ids, idsL, preL]

mutual
theorem pre_map' {γ δ : Type} (f : γ → δ) : ∀ (t : RTree γ), (t.map f).pre = t.pre.map f
  | node x ts => by simp [map, pre, preL_map' f ts]
theorem preL_map' {γ δ : Type} (f : γ → δ) : ∀ (ts : List (RTree γ)), preL (mapL f ts) = (preL ts).map f
  | [] => by simp [mapL, preL]
  | t :: ts => by simp [mapL, preL, pre_map' f t, preL_map' f ts]
end

theorem root_mem_ids (t : RTree (ι × α)) : t.data.1 ∈ t.ids := by cases t; simp [data]

mutual
theorem subs_ids : ∀ {t s : RTree (ι × α)}, s ∈ t.subs → ∀ x ∈ s.ids, x ∈ t.ids
  | node y ts, s, h, x, hx => by
    simp only [subs, List.mem_cons] at h
    rcases h with rfl | h
    · exact hx
    · simp [subsL_ids h x hx]
theorem subsL_ids : ∀ {ts : List (RTree (ι × α))} {s : RTree (ι × α)}, s ∈ subsL ts → ∀ x ∈ s.ids, x ∈ idsL ts
  | [], s, h, x, hx => by simp [subsL] at h
  | t :: ts, s, h, x, hx => by
    simp only [subsL, List.mem_append] at h
    simp only [idsL_cons, List.mem_append]
    rcases h with h | h
    · exact .inl (subs_ids h x hx)
    · exact .inr (subsL_ids h x hx)
end

theorem self_mem_subs (t : RTree β) : t ∈ t.subs := by cases t; simp [subs]

mutual
theorem released_ids (held : ι → Bool) : ∀ {t : RTree (ι × α)} {x}, x ∈ released held t → x ∈ t.pre
  | node y ts, x, h => by
    simp only [released] at h
    split at h
    · simp at h
    · simp only [List.mem_append, List.mem_singleton] at h
      simp only [pre, List.mem_cons]
      rcases h with h | h
      · exact .inr (releasedL_ids held h)
      · exact .inl h
theorem releasedL_ids (held : ι → Bool) : ∀ {ts : List (RTree (ι × α))} {x}, x ∈ releasedL held ts → x ∈ preL ts
  | [], x, h => by simp [releasedL] at h
  | t :: ts, x, h => by
    simp only [releasedL, List.mem_append] at h
    simp only [preL, List.mem_append]
    rcases h with h | h
    · exact .inl (released_ids held h)
    · exact .inr (releasedL_ids held h)
end

mutual
/-- A node is released if no subtree with a held root contains it. -/
theorem mem_released (held : ι → Bool) : ∀ {t : RTree (ι × α)}, t.ids.Nodup → ∀ x,
    x ∈ released held t ↔ x ∈ t.pre ∧ ∀ s ∈ t.subs, held s.data.1 = true → x.1 ∉ s.ids
  | node y ts, hn, x => by
    simp only [ids_node, List.nodup_cons] at hn
    have ih := mem_releasedL held hn.2 x
    simp only [released]
    by_cases h : held y.1 = true
    · simp only [h, if_true, List.not_mem_nil, false_iff, not_and]
      intro hx hs
      exact hs _ (self_mem_subs _) h (List.mem_map.mpr ⟨x, hx, rfl⟩)
    · simp only [h, if_false, List.mem_append, List.mem_singleton, ih, pre, List.mem_cons, subs, Bool.false_eq_true, List.not_mem_nil, or_false]
      constructor
      · rintro (⟨h1, h2⟩ | rfl)
        · refine ⟨.inr h1, ?_⟩
          rintro s (rfl | hs)
          · intro h'; exact absurd h' h
          · exact h2 s hs
        · refine ⟨.inl rfl, ?_⟩
          rintro s (rfl | hs)
          · intro h'; exact absurd h' h
          · intro _ h'; exact hn.1 (subsL_ids hs _ h')
      · rintro ⟨h1 | h1, h2⟩
        · exact .inr h1
        · exact .inl ⟨h1, fun s hs => h2 s (.inr hs)⟩
theorem mem_releasedL (held : ι → Bool) : ∀ {ts : List (RTree (ι × α))}, (idsL ts).Nodup → ∀ x,
    x ∈ releasedL held ts ↔ x ∈ preL ts ∧ ∀ s ∈ subsL ts, held s.data.1 = true → x.1 ∉ s.ids
  | [], hn, x => by simp [releasedL, preL]
  | t :: ts, hn, x => by
    simp only [idsL_cons] at hn
    obtain ⟨h1, h2, h3⟩ := List.nodup_append.mp hn
    have i1 := mem_released held h1 x
    have i2 := mem_releasedL held h2 x
    simp only [releasedL, List.mem_append, i1, i2, preL, subsL]
    constructor
    · rintro (⟨g1, g2⟩ | ⟨g1, g2⟩)
      · refine ⟨.inl g1, ?_⟩
        rintro s (hs | hs)
        · exact g2 s hs
        · intro _ h; exact h3 _ (List.mem_map.mpr ⟨x, g1, rfl⟩) _ (subsL_ids hs _ h) rfl
      · refine ⟨.inr g1, ?_⟩
        rintro s (hs | hs)
        · intro _ h; exact h3 _ (subs_ids hs _ h) _ (List.mem_map.mpr ⟨x, g1, rfl⟩) rfl
        · exact g2 s hs
    · rintro ⟨g1 | g1, g2⟩
      · exact .inl ⟨g1, fun s hs => g2 s (.inl hs)⟩
      · exact .inr ⟨g1, fun s hs => g2 s (.inr hs)⟩
end

mutual
theorem released_nodup (held : ι → Bool) : ∀ {t : RTree (ι × α)}, t.ids.Nodup → ((released held t).map Prod.fst).Nodup
  | node y ts, hn => by
    simp only [ids_node, List.nodup_cons] at hn
    simp only [released]
    split
    · simp
    · simp only [List.map_append, List.map_cons, List.map_nil]
      refine List.nodup_append.mpr ⟨releasedL_nodup held hn.2, by simp, ?_⟩
      intro a ha b hb e
      simp only [List.mem_singleton] at hb
      subst hb; subst e
      obtain ⟨x, hx, e⟩ := List.mem_map.mp ha
      exact hn.1 (List.mem_map.mpr ⟨x, releasedL_ids held hx, e⟩)
theorem releasedL_nodup (held : ι → Bool) : ∀ {ts : List (RTree (ι × α))}, (idsL ts).Nodup → ((releasedL held ts).map Prod.fst).Nodup
  | [], hn => by simp [releasedL]
  | t :: ts, hn => by
    simp only [idsL_cons] at hn
    obtain ⟨h1, h2, h3⟩ := List.nodup_append.mp hn
    simp only [releasedL, List.map_append]
    refine List.nodup_append.mpr ⟨released_nodup held h1, releasedL_nodup held h2, ?_⟩
    intro a ha b hb e
    obtain ⟨x, hx, rfl⟩ := List.mem_map.mp ha
    obtain ⟨y, hy, rfl⟩ := List.mem_map.mp hb
    exact h3 _ (List.mem_map.mpr ⟨x, released_ids held hx, rfl⟩) _ (List.mem_map.mpr ⟨y, releasedL_ids held hy, rfl⟩) e
end

mutual
theorem mem_survivors (held : ι → Bool) : ∀ {t : RTree (ι × α)}, t.ids.Nodup → ∀ {s}, s ∈ survivors held t →
    s ∈ t.subs ∧ held s.data.1 = true ∧ ∀ u ∈ t.subs, held u.data.1 = true → s.data.1 ∈ u.ids → u = s
  | node y ts, hn, s, hs => by
    simp only [ids_node, List.nodup_cons] at hn
    simp only [survivors] at hs
    split at hs
    · rename_i h
      simp only [List.mem_singleton] at hs
      subst hs
      refine ⟨self_mem_subs _, h, ?_⟩
      intro u hu _ hx
      simp only [subs, List.mem_cons] at hu
      rcases hu with rfl | hu
      · rfl
      · exact absurd (subsL_ids hu _ hx) hn.1
    · rename_i h
      obtain ⟨h1, h2, h3⟩ := mem_survivorsL held hn.2 hs
      refine ⟨by simp [subs, h1], h2, ?_⟩
      intro u hu h4 h5
      simp only [subs, List.mem_cons] at hu
      rcases hu with rfl | hu
      · exact absurd h4 h
      · exact h3 u hu h4 h5
theorem mem_survivorsL (held : ι → Bool) : ∀ {ts : List (RTree (ι × α))}, (idsL ts).Nodup → ∀ {s}, s ∈ survivorsL held ts →
    s ∈ subsL ts ∧ held s.data.1 = true ∧ ∀ u ∈ subsL ts, held u.data.1 = true → s.data.1 ∈ u.ids → u = s
  | [], hn, s, hs => by simp [survivorsL] at hs
  | t :: ts, hn, s, hs => by
    simp only [idsL_cons] at hn
    obtain ⟨h1, h2, h3⟩ := List.nodup_append.mp hn
    simp only [survivorsL, List.mem_append] at hs
    rcases hs with hs | hs
    · obtain ⟨g1, g2, g3⟩ := mem_survivors held h1 hs
      refine ⟨by simp [subsL, g1], g2, ?_⟩
      intro u hu h4 h5
      simp only [subsL, List.mem_append] at hu
      rcases hu with hu | hu
      · exact g3 u hu h4 h5
      · exact absurd rfl (h3 _ (subs_ids g1 _ (root_mem_ids s)) _ (subsL_ids hu _ h5))
    · obtain ⟨g1, g2, g3⟩ := mem_survivorsL held h2 hs
      refine ⟨by simp [subsL, g1], g2, ?_⟩
      intro u hu h4 h5
      simp only [subsL, List.mem_append] at hu
      rcases hu with hu | hu
      · exact absurd rfl (h3 _ (subs_ids hu _ h5) _ (subsL_ids g1 _ (root_mem_ids s)))
      · exact g3 u hu h4 h5
end

mutual
/-- Nothing gets lost. -/
theorem released_or_survivor (held : ι → Bool) : ∀ {t : RTree (ι × α)} {x}, x ∈ t.pre → x ∈ released held t ∨ ∃ s ∈ survivors held t, x ∈ s.pre
  | node y ts, x, hx => by
    simp only [released, survivors]
    split
    · exact .inr ⟨_, by simp, hx⟩
    · simp only [pre, List.mem_cons] at hx
      rcases hx with rfl | hx
      · simp
      · rcases released_or_survivorL held hx with h | h
        · simp [h]
        · exact .inr h
theorem released_or_survivorL (held : ι → Bool) : ∀ {ts : List (RTree (ι × α))} {x}, x ∈ preL ts → x ∈ releasedL held ts ∨ ∃ s ∈ survivorsL held ts, x ∈ s.pre
  | [], x, hx => by simp [preL] at hx
  | t :: ts, x, hx => by
    simp only [preL, List.mem_append] at hx
    simp only [releasedL, survivorsL, List.mem_append]
    rcases hx with hx | hx
    · rcases released_or_survivor held hx with h | ⟨s, h1, h2⟩
      · exact .inl (.inl h)
      · exact .inr ⟨s, .inl h1, h2⟩
    · rcases released_or_survivorL held hx with h | ⟨s, h1, h2⟩
      · exact .inl (.inr h)
      · exact .inr ⟨s, .inr h1, h2⟩
end

end RTree

/-! ### Handles show parts of the same trees -/

mutual
theorem Den.lab_addr {h : Heap α} {K : Addr → List Addr} : ∀ {a} {t : RTree (Addr × α)}, Den h.lab K a t → Den (fun a => some a) K a (t.map Prod.fst)
  | a, .node x ts, hd => by
    have hr := hd.root
    simp only [Den_node] at hd
    simp only [RTree.map, Den_node]
    refine ⟨?_, DenL.lab_addr hd.2⟩
    simp only [RTree.data] at hr
    rw [hr]
theorem DenL.lab_addr {h : Heap α} {K : Addr → List Addr} : ∀ {cs} {ts : List (RTree (Addr × α))}, DenL h.lab K cs ts → DenL (fun a => some a) K cs (RTree.mapL Prod.fst ts)
  | [], [], _ => by simp [RTree.mapL]
  | [], _ :: _, hd => by simp at hd
  | _ :: _, [], hd => by simp at hd
  | c :: cs, t :: ts, hd => by
    simp only [DenL_cons] at hd
    simp only [RTree.mapL, DenL_cons]
    exact ⟨Den.lab_addr hd.1, DenL.lab_addr hd.2⟩
end

mutual
theorem Den.sub_at {v : Addr → Option β} {K : Addr → List Addr} : ∀ {a} {t : RTree β}, Den v K a t → ∀ {b}, Reach K a b → ∃ s ∈ t.subs, Den v K b s
  | a, .node x ts, hd, b, hr => by
    cases hr with
    | refl => exact ⟨_, RTree.self_mem_subs _, hd⟩
    | step hc hr =>
      simp only [Den_node] at hd
      obtain ⟨s, h1, h2⟩ := DenL.sub_at hd.2 hc hr
      exact ⟨s, by simp [RTree.subs, h1], h2⟩
theorem DenL.sub_at {v : Addr → Option β} {K : Addr → List Addr} : ∀ {cs} {ts : List (RTree β)}, DenL v K cs ts → ∀ {c b}, c ∈ cs → Reach K c b → ∃ s ∈ RTree.subsL ts, Den v K b s
  | [], _, hd, c, b, hc, hr => by simp at hc
  | _ :: _, [], hd, c, b, hc, hr => by simp at hd
  | d :: cs, t :: ts, hd, c, b, hc, hr => by
    simp only [DenL_cons] at hd
    simp only [RTree.subsL, List.mem_append]
    rcases List.mem_cons.mp hc with rfl | hc
    · obtain ⟨s, h1, h2⟩ := Den.sub_at hd.1 hr
      exact ⟨s, .inl h1, h2⟩
    · obtain ⟨s, h1, h2⟩ := DenL.sub_at hd.2 hc hr
      exact ⟨s, .inr h1, h2⟩
end

section
variable {m : RMachine α}

theorem si_nodup (hm : SI m) {k : Var} {t : RTree (Addr × α)} (h : m.look k = some t) : t.ids.Nodup := by
  obtain ⟨G, K, T, I, B⟩ := hm
  obtain ⟨a, h1, h2⟩ := I.look_iff.mp h
  have := (I.inv.nodup_pre h2.lab_addr).1
  rwa [RTree.pre_map'] at this

/-- A handle to a node of a tree shows the subtree of this node. -/
theorem si_coherent (hm : SI m) {k j : Var} {t u : RTree (Addr × α)} (h : m.look k = some t) (hj : m.look j = some u) (hu : u.data.1 ∈ t.ids) : u ∈ t.subs := by
  obtain ⟨G, K, T, I, B⟩ := hm
  obtain ⟨a, h1, h2⟩ := I.look_iff.mp h
  obtain ⟨b, h3, h4⟩ := I.look_iff.mp hj
  obtain ⟨x, hx, e⟩ := List.mem_map.mp hu
  have hr := den_pre_reach h2 x hx
  rw [e, h4.root] at hr
  obtain ⟨s, g1, g2⟩ := h2.sub_at hr
  rw [h4.unique g2]; exact g1

/-- If two handles show a common node, then one shows the other. -/
theorem si_overlap (hm : SI m) {k j : Var} {t u : RTree (Addr × α)} (h : m.look k = some t) (hj : m.look j = some u) {x : Addr} (ht : x ∈ t.ids) (hu : x ∈ u.ids) :
    u.data.1 ∈ t.ids ∨ t.data.1 ∈ u.ids := by
  obtain ⟨G, K, T, I, B⟩ := hm
  obtain ⟨a, h1, h2⟩ := I.look_iff.mp h
  obtain ⟨b, h3, h4⟩ := I.look_iff.mp hj
  obtain ⟨y, hy, rfl⟩ := List.mem_map.mp ht
  obtain ⟨z, hz, e⟩ := List.mem_map.mp hu
  have r1 := den_pre_reach h2 y hy
  have r2 := den_pre_reach h4 z hz
  rw [e] at r2
  rcases I.inv.reach_linear r1 r2 with h | h
  · left; rw [h4.root]; exact den_reach_pre h2 h
  · right; rw [h2.root]; exact den_reach_pre h4 h

/-- If the node of `k` has no parent, then every handle that shows a node of its tree is a handle to one of its nodes. -/
theorem si_below (hm : SI m) {k j : Var} {t u : RTree (Addr × α)} (h : m.look k = some t) (hp : ¬ m.HasParent t.data.1) (hj : m.look j = some u) {x : Addr} (ht : x ∈ t.ids) (hu : x ∈ u.ids) :
    u ∈ t.subs := by
  refine si_coherent hm h hj ?_
  rcases si_overlap hm h hj ht hu with g | g
  · exact g
  · cases u with
    | node y us =>
      simp only [RTree.ids_node, List.mem_cons] at g
      rcases g with g | g
      · simp only [RTree.data] at g ⊢; rw [← g]; exact t.root_mem_ids
      · exact absurd ⟨j, _, hj, g⟩ hp

/-- What drop leaves. -/
theorem si_drop_shown (hm : SI m) {k : Var} {t : RTree (Addr × α)} (hk : m.look k = some t) (hp : ¬ m.HasParent t.data.1) {m' : RMachine α}
    (hl : ∀ j, j ≠ k → m'.look j = m.look j) (hn : m'.look k = none) :
    ((t.released (m.heldElse k)).map Prod.fst).Nodup ∧
    (∀ a, m.Shown a → (m'.Shown a ↔ a ∉ (t.released (m.heldElse k)).map Prod.fst)) ∧
    (∀ a ∈ (t.released (m.heldElse k)).map Prod.fst, m.Shown a) ∧
    ∀ s ∈ t.survivors (m.heldElse k), (∃ j, j ≠ k ∧ m'.look j = some s) ∧ ¬ m'.HasParent s.data.1 := by
  have hnd := si_nodup hm hk
  have hheld : ∀ {j u}, j ≠ k → m.look j = some u → m.heldElse k u.data.1 = true := fun hj hu => by
    simp only [RMachine.heldElse, decide_eq_true_eq]; exact ⟨_, hj, look_node hu⟩
  have hlook : ∀ s ∈ t.subs, m.heldElse k s.data.1 = true → ∃ j, j ≠ k ∧ m'.look j = some s := by
    intro s hs h
    simp only [RMachine.heldElse, decide_eq_true_eq] at h
    obtain ⟨j, h1, h2⟩ := h
    simp only [RMachine.nodeOf, Option.map_eq_some_iff] at h2
    obtain ⟨u, h2, h3⟩ := h2
    refine ⟨j, h1, ?_⟩
    rw [hl j h1, h2]
    -- same node, same subtree
    obtain ⟨G, K, T, I, B⟩ := hm
    obtain ⟨a, g1, g2⟩ := I.look_iff.mp hk
    obtain ⟨b, g3, g4⟩ := I.look_iff.mp h2
    obtain ⟨c, g5, g6⟩ := g2.sub hs
    have : b = c := by rw [← g4.root, ← g6.root, h3]
    subst this
    rw [g4.unique g6]
  refine ⟨RTree.released_nodup _ hnd, ?_, ?_, ?_⟩
  · rintro a ⟨j, u, h1, h2⟩
    constructor
    · rintro ⟨i, w, h3, h4⟩ h5
      have hi : i ≠ k := by rintro rfl; rw [hn] at h3; simp at h3
      rw [hl i hi] at h3
      obtain ⟨x, h6, rfl⟩ := List.mem_map.mp h5
      have h7 := (RTree.mem_released _ hnd x).mp h6
      have h8 := si_below hm hk hp h3 (List.mem_map.mpr ⟨x, h7.1, rfl⟩) h4
      exact h7.2 w h8 (hheld hi h3) h4
    · intro h5
      by_cases e : j = k
      · subst e
        rw [hk] at h1; cases h1
        obtain ⟨x, h6, rfl⟩ := List.mem_map.mp h2
        rcases RTree.released_or_survivor (m.heldElse j) h6 with h | ⟨s, h7, h8⟩
        · exact absurd (List.mem_map.mpr ⟨x, h, rfl⟩) h5
        · obtain ⟨g1, g2, -⟩ := RTree.mem_survivors _ hnd h7
          obtain ⟨i, -, g3⟩ := hlook s g1 g2
          exact ⟨i, s, g3, List.mem_map.mpr ⟨x, h8, rfl⟩⟩
      · exact ⟨j, u, by rw [hl j e]; exact h1, h2⟩
  · intro a ha
    obtain ⟨x, h6, rfl⟩ := List.mem_map.mp ha
    exact ⟨k, t, hk, List.mem_map.mpr ⟨x, RTree.released_ids _ h6, rfl⟩⟩
  · intro s hs
    obtain ⟨g1, g2, g3⟩ := RTree.mem_survivors _ hnd hs
    refine ⟨hlook s g1 g2, ?_⟩
    rintro ⟨i, w, h3, h4⟩
    have hi : i ≠ k := by rintro rfl; rw [hn] at h3; simp at h3
    rw [hl i hi] at h3
    have h5 : s.data.1 ∈ w.ids := by cases w; simp only [RTree.ids_node, List.mem_cons]; exact .inr h4
    have h8 := si_below hm hk hp h3 (RTree.subs_ids g1 _ s.root_mem_ids) h5
    have := g3 w h8 (hheld hi h3) h5
    subst this
    have hnd' := si_nodup hm h3
    cases w with
    | node y ws =>
      simp only [RTree.ids_node, List.nodup_cons] at hnd'
      exact hnd'.1 h4

end
end Trees
