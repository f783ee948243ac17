import Verif.Proof.Source
/-
Pure facts about updating the data of a tree by position in breadth-first order.
-/
namespace Trees
set_option linter.unusedSimpArgs false
variable {α β γ : Type}
open RTree

/-- The visits determine the trees. -/
theorem visits_inj : ∀ (n : Nat) (ts us : List (RTree α)), countL ts ≤ n → ts.length = us.length → visits ts = visits us → ts = us := by
  intro n
  induction n with
  | zero =>
    intro ts us h hl _
    have := countL_eq_zero (Nat.le_zero.mp h)
    subst this
    exact (List.length_eq_zero_iff.mp hl.symm).symm
  | succ n ih =>
    intro ts us h hl hv
    cases ts with
    | nil => exact (List.length_eq_zero_iff.mp hl.symm).symm
    | cons t ts =>
      cases us with
      | nil => simp at hl
      | cons u us =>
        rw [visits_cons, visits_cons, List.cons.injEq, Prod.mk.injEq] at hv
        obtain ⟨⟨hd, hs⟩, hv⟩ := hv
        simp only [szOf, Size.mk.injEq] at hs
        simp only [List.length_cons, Nat.add_right_cancel_iff] at hl
        have h2 : countL (ts ++ t.kids) + 1 = countL (t :: ts) := by simp [count_eq t]; omega
        have := ih _ _ (by omega) (by simp [hl, hs.1]) hv
        obtain ⟨h3, h4⟩ := List.append_inj this hl
        rw [h3, ← RTree.eta t, ← RTree.eta u, hd, h4]

mutual
theorem Den.count_eq {δ ε : Type} {v : Addr → Option δ} {w : Addr → Option ε} {K : Addr → List Addr} :
    ∀ {a : Addr} {t : RTree δ} {u : RTree ε}, Den v K a t → Den w K a u → t.count = u.count
  | a, node d ks, node d' ks', h1, h2 => by
    rw [Den_node] at h1 h2
    simp only [count]
    rw [DenL.count_eq h1.2 h2.2]
theorem DenL.count_eq {δ ε : Type} {v : Addr → Option δ} {w : Addr → Option ε} {K : Addr → List Addr} :
    ∀ {cs : List Addr} {ts : List (RTree δ)} {us : List (RTree ε)}, DenL v K cs ts → DenL w K cs us → countL ts = countL us
  | [], ts, us, h1, h2 => by simp at h1 h2; simp [h1, h2]
  | c :: cs, [], us, h1, h2 => by simp at h1
  | c :: cs, t :: ts, [], h1, h2 => by simp at h2
  | c :: cs, t :: ts, u :: us, h1, h2 => by
    rw [DenL_cons] at h1 h2
    simp only [countL]
    rw [Den.count_eq h1.1 h2.1, DenL.count_eq h1.2 h2.2]
end

/-- Visits of two labellings of one structure correspond. -/
theorem qbfs_den {δ ε : Type} {v : Addr → Option δ} {w : Addr → Option ε} {K : Addr → List Addr} :
    ∀ (n : Nat) (cs : List Addr) (ts : List (RTree δ)) (us : List (RTree ε)), countL ts ≤ n → DenL v K cs ts → DenL w K cs us →
    ∃ as : List Addr, List.Forall₂ (fun a t => v a = some t.data) as (qbfs ts) ∧
      List.Forall₂ (fun a u => w a = some u.data) as (qbfs us) ∧ (qbfs ts).map szOf = (qbfs us).map szOf := by
  intro n
  induction n with
  | zero =>
    intro cs ts us h d1 d2
    have := countL_eq_zero (Nat.le_zero.mp h)
    subst this
    have : cs = [] := by simpa using d1
    subst this
    have : us = [] := by simpa using d2
    subst this
    exact ⟨[], by simp, by simp, by simp⟩
  | succ n ih =>
    intro cs ts us h d1 d2
    cases ts with
    | nil =>
      have : cs = [] := by simpa using d1
      subst this
      have : us = [] := by simpa using d2
      subst this
      exact ⟨[], by simp, by simp, by simp⟩
    | cons t ts =>
      cases cs with
      | nil => simp at d1
      | cons c cs =>
        cases us with
        | nil => simp at d2
        | cons u us =>
          rw [DenL_cons] at d1 d2
          cases t with
          | node dt kt =>
            cases u with
            | node du ku =>
              rw [Den_node] at d1 d2
              have h2 : countL (ts ++ kt) + 1 = countL (node dt kt :: ts) := by simp; omega
              obtain ⟨as, h3, h4, h5⟩ := ih (cs ++ K c) (ts ++ kt) (us ++ ku) (by omega) (d1.2.append d1.1.2) (d2.2.append d2.1.2)
              refine ⟨c :: as, ?_, ?_, ?_⟩
              · rw [qbfs_cons]; exact .cons d1.1.1 h3
              · rw [qbfs_cons]; exact .cons d2.1.1 h4
              · rw [qbfs_cons, qbfs_cons, List.map_cons, List.map_cons]
                have e1 : szOf (node dt kt) = szOf (node du ku) := by
                  have l1 := d1.1.2.length
                  have l2 := d2.1.2.length
                  simp only [szOf, kids_node, Size.mk.injEq]
                  exact ⟨by omega, DenL.count_eq d1.1.2 d2.1.2⟩
                rw [e1]
                exact congrArg _ h5

/-! ### Position labels -/

mutual
theorem mapPath_eq (g : Path → α → β) : ∀ (p : Path) (t : RTree α),
    mapPath g p t = (mapPath (fun p d => (p, d)) p t).map (fun x => g x.1 x.2)
  | p, node d ks => by simp [mapPath, mapPathL_eq g p 0 ks]
theorem mapPathL_eq (g : Path → α → β) : ∀ (p : Path) (i : Nat) (ts : List (RTree α)),
    mapPathL g p i ts = mapL (fun x => g x.1 x.2) (mapPathL (fun p d => (p, d)) p i ts)
  | p, i, [] => by simp [mapPathL]
  | p, i, t :: ts => by simp only [mapPathL, mapL]; rw [mapPath_eq g _ t, mapPathL_eq g p (i + 1) ts]
end

mutual
theorem mapPath_snd : ∀ (p : Path) (t : RTree α), mapPath (fun _ d => d) p t = t
  | p, node d ks => by simp [mapPath, mapPathL_snd p 0 ks]
theorem mapPathL_snd : ∀ (p : Path) (i : Nat) (ts : List (RTree α)), mapPathL (fun _ d => d) p i ts = ts
  | p, i, [] => by simp [mapPathL]
  | p, i, t :: ts => by simp only [mapPathL]; rw [mapPath_snd _ t, mapPathL_snd p (i + 1) ts]
end

theorem withPath_snd (t : RTree α) : (withPath t).map (fun x => x.2) = t := by
  rw [withPath, ← mapPath_eq (fun _ d => d), mapPath_snd]
theorem withPathL_snd (ts : List (RTree α)) : mapL (fun x => x.2) (withPathL ts) = ts := by
  rw [withPathL, ← mapPathL_eq (fun _ d => d), mapPathL_snd]

/-- Preorder and breadth-first order list the same items. -/
theorem preL_perm : ∀ (n : Nat) (ts : List (RTree α)), countL ts ≤ n → ((qbfs ts).map data).Perm (preL ts) := by
  intro n
  induction n with
  | zero => intro ts h; have := countL_eq_zero (Nat.le_zero.mp h); subst this; simp
  | succ n ih =>
    intro ts h
    cases ts with
    | nil => simp
    | cons t ts =>
      have h2 : countL (ts ++ t.kids) + 1 = countL (t :: ts) := by simp [count_eq t]; omega
      rw [qbfs_cons, List.map_cons]
      cases t with
      | node d ks =>
        simp only [preL, pre, List.cons_append, data_node]
        refine .cons _ ((ih _ (by omega)).trans ?_)
        rw [preL_append]
        exact List.perm_append_comm

mutual
theorem mem_mapPath : ∀ (p : Path) (t : RTree α), ∀ x ∈ (mapPath (fun p d => (p, d)) p t).pre, ∃ q, x.1 = p ++ q
  | p, node d ks => by
    intro x hx
    simp only [mapPath, pre, List.mem_cons] at hx
    rcases hx with rfl | hx
    · exact ⟨[], by simp⟩
    · obtain ⟨j, q, _, e⟩ := mem_mapPathL p 0 ks x hx
      exact ⟨j :: q, e⟩
theorem mem_mapPathL : ∀ (p : Path) (i : Nat) (ts : List (RTree α)), ∀ x ∈ preL (mapPathL (fun p d => (p, d)) p i ts),
    ∃ j q, i ≤ j ∧ x.1 = p ++ (j :: q)
  | p, i, [] => by simp [mapPathL, preL]
  | p, i, t :: ts => by
    intro x hx
    simp only [mapPathL, preL, List.mem_append] at hx
    rcases hx with hx | hx
    · obtain ⟨q, e⟩ := mem_mapPath (p ++ [i]) t x hx
      exact ⟨i, q, Nat.le_refl _, by simp [e]⟩
    · obtain ⟨j, q, h1, e⟩ := mem_mapPathL p (i + 1) ts x hx
      exact ⟨j, q, by omega, e⟩
end

mutual
theorem nodup_mapPath : ∀ (p : Path) (t : RTree α), ((mapPath (fun p d => (p, d)) p t).pre.map (fun x => x.1)).Nodup
  | p, node d ks => by
    simp only [mapPath, pre, List.map_cons, List.nodup_cons]
    refine ⟨?_, nodup_mapPathL p 0 ks⟩
    intro h
    obtain ⟨x, hx, e⟩ := List.mem_map.mp h
    obtain ⟨j, q, _, e2⟩ := mem_mapPathL p 0 ks x hx
    rw [e2] at e
    have := congrArg List.length e
    simp at this
theorem nodup_mapPathL : ∀ (p : Path) (i : Nat) (ts : List (RTree α)),
    ((preL (mapPathL (fun p d => (p, d)) p i ts)).map (fun x => x.1)).Nodup
  | p, i, [] => by simp [mapPathL, preL]
  | p, i, t :: ts => by
    simp only [mapPathL, preL, List.map_append]
    rw [List.nodup_append]
    refine ⟨nodup_mapPath _ t, nodup_mapPathL p (i + 1) ts, ?_⟩
    intro a ha b hb
    obtain ⟨x, hx, rfl⟩ := List.mem_map.mp ha
    obtain ⟨y, hy, rfl⟩ := List.mem_map.mp hb
    obtain ⟨q, e⟩ := mem_mapPath (p ++ [i]) t x hx
    obtain ⟨j, q', h1, e'⟩ := mem_mapPathL p (i + 1) ts y hy
    intro h
    rw [e, e', List.append_assoc, List.append_cancel_left_eq] at h
    simp at h
    omega
end

/-- Updating by index in a list of distinctly labelled trees. -/
theorem visits_upd {f : Nat → α → β} {TS : List (RTree (Path × α))} (nd : ((preL TS).map (fun x => x.1)).Nodup) :
    visits (mapL (fun x => f (((qbfs TS).map (fun s => s.data.1)).idxOf x.1) x.2) TS) =
      (visits (mapL (fun x => x.2) TS)).mapIdx (fun i v => (f i v.1, v.2)) := by
  have hp : ((qbfs TS).map (fun s => s.data.1)).Nodup := by
    have := (preL_perm _ TS (Nat.le_refl _)).map (fun x => x.1)
    rw [List.map_map] at this
    exact this.nodup_iff.mpr nd
  rw [visits_mapL, visits_mapL]
  apply List.ext_getElem
  · simp
  · intro i h1 h2
    simp only [List.length_map] at h1
    have hi : i < (qbfs TS).length := by simpa [visits] using h1
    simp only [List.getElem_map, List.getElem_mapIdx, visits]
    congr 2
    have e1 : ((qbfs TS)[i].data).1 = ((qbfs TS).map (fun s => s.data.1))[i]'(by simpa using hi) := by simp
    rw [e1, hp.idxOf_getElem]

theorem visits_updLevelL (f : Nat → α → β) (ts : List (RTree α)) :
    visits (updLevelL f ts) = (visits ts).mapIdx (fun i v => (f i v.1, v.2)) := by
  have := visits_upd (f := f) (TS := withPathL ts) (nodup_mapPathL [] 0 ts)
  rw [withPathL_snd] at this
  rw [← this, updLevelL, mapPathL_eq, levelPathsL, levelOrder_eq]
  rfl

theorem visits_updLevel (f : Nat → α → β) (t : RTree α) :
    visits [updLevel f t] = (visits [t]).mapIdx (fun i v => (f i v.1, v.2)) := by
  have := visits_upd (f := f) (TS := [withPath t]) (by simpa [preL, withPath] using nodup_mapPath [] t)
  simp only [mapL, withPath_snd] at this
  rw [← this, updLevel, mapPath_eq, levelPaths, levelOrder_eq]
  rfl

theorem mapPathL_length (g : Path → α → β) (p : Path) : ∀ (i : Nat) (ts : List (RTree α)), (mapPathL g p i ts).length = ts.length
  | i, [] => rfl
  | i, t :: ts => by simp [mapPathL, mapPathL_length g p (i + 1) ts]

theorem updLevelL_length (f : Nat → α → β) (ts : List (RTree α)) : (updLevelL f ts).length = ts.length := mapPathL_length _ _ _ _

theorem countL_updLevelL (f : Nat → α → β) (ts : List (RTree α)) : countL (updLevelL f ts) = countL ts := by
  rw [← length_visits, visits_updLevelL, List.length_mapIdx, length_visits]

/-- What characterises the update. -/
theorem updLevelL_unique {f : Nat → α → β} {ts : List (RTree α)} {us : List (RTree β)} (hl : us.length = ts.length)
    (hv : visits us = (visits ts).mapIdx (fun i v => (f i v.1, v.2))) : us = updLevelL f ts :=
  visits_inj _ _ _ (Nat.le_refl _) (by rw [updLevelL_length, hl]) (by rw [hv, visits_updLevelL])

theorem updLevel_unique {f : Nat → α → β} {t : RTree α} {u : RTree β}
    (hv : visits [u] = (visits [t]).mapIdx (fun i v => (f i v.1, v.2))) : u = updLevel f t := by
  have := visits_inj _ [u] [updLevel f t] (Nat.le_refl _) rfl (by rw [hv, visits_updLevel])
  exact List.head_eq_of_cons_eq this

theorem mapIdx_const {δ ε : Type} (g : δ → ε) (l : List δ) : l.mapIdx (fun _ v => g v) = l.map g := by
  apply List.ext_getElem <;> simp

theorem updLevelL_const (f : α → β) (ts : List (RTree α)) : updLevelL (fun _ => f) ts = mapL f ts := by
  refine (updLevelL_unique (by rw [mapL_eq, List.length_map]) ?_).symm
  rw [visits_mapL, mapIdx_const (fun v : α × Size => (f v.1, v.2))]

theorem updLevel_const (f : α → β) (t : RTree α) : updLevel (fun _ => f) t = t.map f := by
  refine (updLevel_unique ?_).symm
  have := visits_mapL f [t]
  rw [mapIdx_const (fun v : α × Size => (f v.1, v.2)), ← this]
  rfl

end Trees
