import Verif.Proof.RcExcl
import Verif.Spec.Shared
/-
What handles show, the borrow flags, and how the views change.
-/
namespace Trees
set_option linter.unusedSimpArgs false
set_option linter.unusedVariables false
variable {α β γ : Type}
open Classical

/-! ### Reading with identities -/

theorem readLab_ok {h : Heap α} {K : Addr → List Addr} (hI : Inv h K) : ∀ (k : Nat) {a : Addr} {t : RTree (Addr × α)},
    h.Used a → Den h.lab K a t → (h.size a).descendants < k → readLab k a h = .ok t h := by
  intro k
  induction k with
  | zero => intro a t _ _ hk; omega
  | succ k ih =>
    intro a t ha hd hk
    cases t with
    | node d ts =>
      simp only [Den_node] at hd
      obtain ⟨h1, h2⟩ := Heap.lab_some.mp hd.1
      simp only [readLab, M.bind_apply, dataRef_ok ha.1 h2, Res.bind_ok, children_ok hI ha]
      rw [readMany_ok (R := Den h.lab K) ?_ (DenL_forall₂.mp hd.2)]
      · simp [← h1]
      · intro c hc t ht
        have := hI.desc_lt hc
        exact ih (hI.used_of_mem hc) ht (by omega)

theorem readNode_ok {h : Heap α} {K : Addr → List Addr} (hI : Inv h K) {a : Addr} {t : RTree (Addr × α)}
    (ha : h.Used a) (hd : Den h.lab K a t) : readNode a h = .ok t h := by
  simp only [readNode, M.fuelled_apply]
  exact readLab_ok hI _ ha hd (by omega)

theorem lab_isSome {h : Heap α} {a : Addr} : (h.lab a).isSome ↔ h.IsVal a := by
  simp [Heap.lab, Heap.isVal_iff, Option.isSome_iff_exists]

theorem exists_lab {h : Heap α} {K : Addr → List Addr} (hI : Inv h K) (kv : ∀ a c, c ∈ K a → h.IsVal c) {a : Addr} (ha : h.Used a) (hv : h.IsVal a) :
    ∃ t, Den h.lab K a t := by
  obtain ⟨ts, h1⟩ := hI.exists_den h.lab (fun a c hc => lab_isSome.mpr (kv a c hc)) ha
  obtain ⟨x, hx⟩ := Option.isSome_iff_exists.mp (lab_isSome.mpr hv)
  exact ⟨.node x ts, by simp [hx, h1]⟩

theorem Den.root {h : Heap α} {K : Addr → List Addr} {a : Addr} {t : RTree (Addr × α)} (hd : Den h.lab K a t) : t.data.1 = a := by
  cases t with
  | node x ts =>
    simp only [Den_node] at hd
    exact (Heap.lab_some.mp hd.1).1

mutual
/-- Forgetting the identities. -/
theorem Den.plain {h : Heap α} {K : Addr → List Addr} : ∀ {a} {t : RTree (Addr × α)}, Den h.lab K a t → Den h.val K a t.plain
  | a, .node x ts, hd => by
    simp only [Den_node] at hd
    simp only [RTree.plain, RTree.map, Den_node]
    exact ⟨(Heap.lab_some.mp hd.1).2, hd.2.plain⟩
theorem DenL.plain {h : Heap α} {K : Addr → List Addr} : ∀ {cs} {ts : List (RTree (Addr × α))}, DenL h.lab K cs ts → DenL h.val K cs (RTree.mapL Prod.snd ts)
  | [], ts, hd => by simp at hd; subst hd; simp
  | c :: cs, [], hd => by simp at hd
  | c :: cs, t :: ts, hd => by
    simp only [DenL_cons] at hd
    simp only [RTree.mapL, DenL_cons]
    exact ⟨hd.1.plain, hd.2.plain⟩
end

/-! ### Changes -/

mutual
/-- The children of one node change. -/
theorem Den.modAt {G : Heap α} {K K' : Addr → List Addr} {v' : Addr → Option (Addr × α)} {u : Addr}
    {f : List (RTree (Addr × α)) → List (RTree (Addr × α))} (hu : ∀ ts, DenL G.lab K (K u) ts → DenL v' K' (K' u) (f ts)) :
    ∀ {a} {t : RTree (Addr × α)}, Den G.lab K a t → (∀ b, Reach K a b → b ≠ u → K' b = K b) → (∀ b, Reach K a b → v' b = G.lab b) →
      Den v' K' a (t.modAt u f)
  | a, .node x ts, hd, hK, hv => by
    simp only [Den_node] at hd
    obtain ⟨h1, -⟩ := Heap.lab_some.mp hd.1
    simp only [RTree.modAt, Den_node, h1, hv a (.refl _)]
    refine ⟨hd.1, ?_⟩
    split
    · rename_i e; subst e; exact hu ts hd.2
    · rename_i e
      rw [hK a (.refl _) e]
      exact hd.2.modAtL hu (fun c hc b hb => hK b (.step hc hb)) (fun c hc b hb => hv b (.step hc hb))
theorem DenL.modAtL {G : Heap α} {K K' : Addr → List Addr} {v' : Addr → Option (Addr × α)} {u : Addr}
    {f : List (RTree (Addr × α)) → List (RTree (Addr × α))} (hu : ∀ ts, DenL G.lab K (K u) ts → DenL v' K' (K' u) (f ts)) :
    ∀ {cs} {ts : List (RTree (Addr × α))}, DenL G.lab K cs ts → (∀ c ∈ cs, ∀ b, Reach K c b → b ≠ u → K' b = K b) →
      (∀ c ∈ cs, ∀ b, Reach K c b → v' b = G.lab b) → DenL v' K' cs (RTree.modAtL u f ts)
  | [], ts, hd, _, _ => by simp at hd; subst hd; simp [RTree.modAtL]
  | c :: cs, [], hd, _, _ => by simp at hd
  | c :: cs, t :: ts, hd, hK, hv => by
    simp only [DenL_cons] at hd
    simp only [RTree.modAtL, DenL_cons]
    exact ⟨hd.1.modAt hu (hK c (by simp)) (hv c (by simp)),
      hd.2.modAtL hu (fun d hd => hK d (by simp [hd])) (fun d hd => hv d (by simp [hd]))⟩
end

mutual
/-- The data item of one node changes. -/
theorem Den.setAt {G : Heap α} {K : Addr → List Addr} {v' : Addr → Option (Addr × α)} {u : Addr} {d : α} (hu : v' u = some (u, d))
    (hv : ∀ b, b ≠ u → v' b = G.lab b) :
    ∀ {a} {t : RTree (Addr × α)}, Den G.lab K a t → Den v' K a (t.setAt u d)
  | a, .node x ts, hd => by
    simp only [Den_node] at hd
    obtain ⟨h1, -⟩ := Heap.lab_some.mp hd.1
    simp only [RTree.setAt, Den_node, h1]
    refine ⟨?_, hd.2.setAtL hu hv⟩
    split
    · rename_i e; rw [e]; exact hu
    · rename_i e; rw [hv a e]; exact hd.1
theorem DenL.setAtL {G : Heap α} {K : Addr → List Addr} {v' : Addr → Option (Addr × α)} {u : Addr} {d : α} (hu : v' u = some (u, d))
    (hv : ∀ b, b ≠ u → v' b = G.lab b) :
    ∀ {cs} {ts : List (RTree (Addr × α))}, DenL G.lab K cs ts → DenL v' K cs (RTree.setAtL u d ts)
  | [], ts, hd => by simp at hd; subst hd; simp [RTree.setAtL]
  | c :: cs, [], hd => by simp at hd
  | c :: cs, t :: ts, hd => by
    simp only [DenL_cons] at hd
    simp only [RTree.setAtL, DenL_cons]
    exact ⟨hd.1.setAt hu hv, hd.2.setAtL hu hv⟩
end

mutual
/-- One child is replaced by other nodes. -/
theorem Den.sibAt {G : Heap α} {K K' : Addr → List Addr} {v' : Addr → Option (Addr × α)} {s : Addr}
    {f : RTree (Addr × α) → List (RTree (Addr × α))} (hI : Inv G K)
    (hp : ∀ b l r, K b = l ++ s :: r → ∃ cs, K' b = l ++ cs ++ r ∧ ∀ t, Den G.lab K s t → DenL v' K' cs (f t))
    (hK : ∀ b, s ∉ K b → ¬ Reach K s b → G.Used b → K' b = K b) (hv : ∀ b, ¬ Reach K s b → G.Used b → v' b = G.lab b) :
    ∀ {a} {t : RTree (Addr × α)}, Den G.lab K a t → G.Used a → ¬ Reach K s a → Den v' K' a (t.sibAt s f)
  | a, .node x ts, hd, ha, hn => by
    simp only [Den_node] at hd
    simp only [RTree.sibAt, Den_node, hv a hn ha]
    refine ⟨hd.1, ?_⟩
    by_cases hm : s ∈ K a
    · obtain ⟨l, r, e⟩ := List.append_of_mem hm
      obtain ⟨cs, e1, e2⟩ := hp a l r e
      rw [e1]
      exact hd.2.sibAtL hI hp hK hv (.inr ⟨l, r, cs, e, rfl, e2⟩) (fun c hc => hI.used_of_mem hc)
        (fun c hc hne hr => by
          rcases hr.cases_tail with h | ⟨b, h1, h2⟩
          · exact hne h.symm
          · exact hn (hI.eq_of_mem hc h2 ▸ h1))
        (hI.l.nodup a) ⟨a, fun _ h => h⟩
    · rw [hK a hm hn ha]
      exact hd.2.sibAtL hI hp hK hv (.inl ⟨hm, rfl⟩) (fun c hc => hI.used_of_mem hc)
        (fun c hc hne hr => by
          rcases hr.cases_tail with h | ⟨b, h1, h2⟩
          · exact hne h.symm
          · exact hn (hI.eq_of_mem hc h2 ▸ h1))
        (hI.l.nodup a) ⟨a, fun _ h => h⟩
theorem DenL.sibAtL {G : Heap α} {K K' : Addr → List Addr} {v' : Addr → Option (Addr × α)} {s : Addr}
    {f : RTree (Addr × α) → List (RTree (Addr × α))} (hI : Inv G K)
    (hp : ∀ b l r, K b = l ++ s :: r → ∃ cs, K' b = l ++ cs ++ r ∧ ∀ t, Den G.lab K s t → DenL v' K' cs (f t))
    (hK : ∀ b, s ∉ K b → ¬ Reach K s b → G.Used b → K' b = K b) (hv : ∀ b, ¬ Reach K s b → G.Used b → v' b = G.lab b) :
    ∀ {cs cs'} {ts : List (RTree (Addr × α))}, DenL G.lab K cs ts →
      ((s ∉ cs ∧ cs' = cs) ∨ ∃ l r cn, cs = l ++ s :: r ∧ cs' = l ++ cn ++ r ∧ ∀ t, Den G.lab K s t → DenL v' K' cn (f t)) →
      (∀ c ∈ cs, G.Used c) → (∀ c ∈ cs, c ≠ s → ¬ Reach K s c) → cs.Nodup →
      (∃ p, ∀ c ∈ cs, c ∈ K p) → DenL v' K' cs' (RTree.sibAtL s f ts)
  | [], cs', ts, hd, hs, _, _, _, _ => by
    simp at hd; subst hd
    rcases hs with ⟨-, rfl⟩ | ⟨l, r, cn, h, -⟩
    · simp [RTree.sibAtL]
    · simp at h
  | c :: cs, cs', [], hd, _, _, _, _, _ => by simp at hd
  | c :: cs, cs', t :: ts, hd, hs, hu, hr, nd, ⟨p, hpar⟩ => by
    simp only [DenL_cons] at hd
    have nd' := List.nodup_cons.mp nd
    have hroot := hd.1.root
    simp only [RTree.sibAtL, hroot]
    -- children that are not `s` and contain no `s`
    rcases hs with ⟨hs, rfl⟩ | ⟨l, r, cn, e1, rfl, e3⟩
    · have hcs : c ≠ s := fun e => hs (by simp [e])
      rw [if_neg hcs, DenL_cons]
      exact ⟨hd.1.sibAt hI hp hK hv (hu c (by simp)) (hr c (by simp) hcs),
        hd.2.sibAtL hI hp hK hv (.inl ⟨fun h => hs (by simp [h]), rfl⟩) (fun d hd => hu d (by simp [hd])) (fun d hd => hr d (by simp [hd])) nd'.2 ⟨p, fun d hd => hpar d (by simp [hd])⟩⟩
    · cases l with
      | nil =>
        simp only [List.nil_append, List.cons.injEq] at e1
        obtain ⟨e, e4⟩ := e1
        subst e4
        rw [if_pos e]
        simp only [List.nil_append]
        refine (e3 t (e ▸ hd.1)).append ?_
        have hns : s ∉ cs := by rw [← e]; exact nd'.1
        -- the rest is unchanged: none of these nodes is above `s`
        refine hd.2.congr fun d hd b hb => ?_
        have hds : d ≠ s := fun h => hns (h ▸ hd)
        have h1 : d ∈ K p := hpar d (by simp [hd])
        have h2 : s ∈ K p := hpar s (by simp [e])
        have h3 : ¬ Reach K s b := fun h => hds (hI.sib_disjoint h1 h2 hb h)
        have h4 : s ∉ K b := fun h => hds (hI.sib_disjoint h1 h2 (hb.tail h) (.refl _))
        have h5 := hI.reach_used (hu d (by simp [hd])) hb
        exact ⟨hK b h4 h3 h5, hv b h3 h5⟩
      | cons c0 l =>
        simp only [List.cons_append, List.cons.injEq] at e1
        obtain ⟨e, e4⟩ := e1
        subst e
        have hcs : c ≠ s := fun e => nd'.1 (by rw [e4, e]; simp)
        rw [if_neg hcs]
        simp only [List.cons_append, DenL_cons]
        exact ⟨hd.1.sibAt hI hp hK hv (hu c (by simp)) (hr c (by simp) hcs),
          hd.2.sibAtL hI hp hK hv (.inr ⟨l, r, cn, e4, by simp, e3⟩) (fun d hd => hu d (by simp [hd])) (fun d hd => hr d (by simp [hd])) nd'.2 ⟨p, fun d hd => hpar d (by simp [hd])⟩⟩
end
end Trees
