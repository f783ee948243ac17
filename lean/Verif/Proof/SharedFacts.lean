import Verif.Props.SharedDefects
import Verif.Proof.SharedEdits
import Verif.Spec.SharedStore
/-
Further facts about shared nodes that the refinement of `Spec/SharedStore.lean` needs.
-/
namespace Trees
set_option linter.unusedSimpArgs false
set_option linter.unusedVariables false
variable {α : Type}

section
variable {m : RMachine α}

theorem si_refs_lt (hm : SI m) {k : Var} {r : Ref} (h : m.refs k = some r) : k < m.fresh := by
  obtain ⟨G, K, T, I, B⟩ := hm
  exact I.refs_lt h

theorem si_refs_fresh (hm : SI m) : m.refs m.fresh = none := by
  obtain ⟨G, K, T, I, B⟩ := hm
  exact (I.fr m.fresh (Nat.le_refl _)).2

/-- The nodes of an exclusive tree are pairwise different, and no handle shows them. -/
theorem si_lookTree (hm : SI m) {x : Var} {t : RTree (Addr × α)} (hx : m.lookTree x = some t) :
    t.ids.Nodup ∧ (∀ b ∈ t.ids, ¬ m.Shown b) ∧ m.excl.store.vars x = some (.tree t.plain) := by
  have hv := view_of_lookTree hm hx
  obtain ⟨G, K, T, I, B⟩ := hm
  obtain ⟨r, h1, h2⟩ := I.lookTree_iff.mp hx
  refine ⟨?_, fun b hb hs => ?_, hv⟩
  · have := (I.inv.nodup_pre h2.lab_addr).1
    rwa [RTree.pre_map'] at this
  · obtain ⟨y, hy, rfl⟩ := List.mem_map.mp hb
    exact (I.shown.mp hs).2 ⟨x, _, h1, den_pre_reach h2 y hy⟩

theorem si_lookForest (hm : SI m) {x : Var} {ts : List (RTree (Addr × α))} (hx : m.lookForest x = some ts) :
    (RTree.idsL ts).Nodup ∧ (∀ b ∈ RTree.idsL ts, ¬ m.Shown b) ∧ m.excl.store.vars x = some (.forest (RTree.mapL Prod.snd ts)) := by
  obtain ⟨G, K, T, I, B⟩ := hm
  obtain ⟨r, h1, h2⟩ := I.lookForest_iff.mp hx
  have hu := (I.hnd x _ h1).used
  refine ⟨?_, fun b hb hs => ?_, ?_⟩
  · have := (I.inv.nodup_preL (a := r) (fun c hc => hc) (I.inv.l.nodup r) h2.lab_addr).1
    rwa [RTree.preL_map'] at this
  · obtain ⟨y, hy, rfl⟩ := List.mem_map.mp hb
    obtain ⟨c, hc, hr⟩ := denL_pre_reach h2 y hy
    exact (I.shown.mp hs).2 ⟨x, _, h1, .step hc hr⟩
  · obtain ⟨v, q1, q2⟩ := I.hden h1
    show m.excl.view x = _
    rw [q2]
    cases v with
    | tree _ => exact q1.elim
    | forest us => rw [DenL.unique q1 h2.plain]
    | iter _ => exact q1.elim

/-- The parent is a node some handle shows. -/
theorem si_parent_sub (hm : SI m) {k : Var} {a : Addr} (hk : m.nodeOf k = some a) (hg : ¬ m.Guarded a true) (hp : m.HasParent a) :
    ∃ m' t, rstep m (.parent k) = .ok m' (.var m.fresh) ∧ Adds m m' ∧ m'.look m.fresh = some t ∧ (a ∈ t.kids.map fun c => c.data.1) ∧
      m.Shown t.data.1 := by
  obtain ⟨m', t, h1, h2, h3, h4⟩ := si_parent hm hk hg hp
  refine ⟨m', t, h1, h2, h3, h4, ?_⟩
  obtain ⟨G, K, T, I, B⟩ := hm
  rw [I.nodeOf] at hk
  obtain ⟨ha, hx⟩ := (I.tgt k a hk).2
  rw [I.hasParent ha hx] at hp
  obtain ⟨u, hu⟩ := Option.ne_none_iff_exists'.mp hp
  have hm := I.inv.mem_iff.mpr ⟨ha, hu⟩
  obtain ⟨g1, g2⟩ := I.shared_parent hm hx
  obtain ⟨m'', e1, A, I'⟩ := I.handle_step B (f := parent) hk hg (c := u) (fun e => by rw [← hu]; exact I.parent_eq ha hx e _) g1 g2 (I.parentV hm hx)
  have e2 : rstep m (.parent k) = .ok m'' (.var m.fresh) := e1
  rw [e2] at h1; cases h1
  obtain ⟨t', ht'⟩ := I'.den (k := m.fresh) (a := u) (by simp)
  rw [I'.look_of (by simp) ht'] at h3; cases h3
  rw [ht'.root]
  exact I.shown.mpr ⟨g1, g2⟩

/-- The next state of an iterator. -/
theorem si_iterNext_at (hm : SI m) {i : Var} {c : Addr} {n : Nat} (hi : m.refs i = some (.iter ⟨some c, n + 1⟩)) (hc : m.Shown c) :
    ∃ m' t nx, rstep m (.iterNext i) = .ok m' (.var m.fresh) ∧ Yields m m' i ∧ m'.look m.fresh = some t ∧ t.data.1 = c ∧ m'.refs i = some (.iter ⟨nx, n⟩) ∧
      (¬ m.HasParent c → nx = none) ∧
      ∀ j u p l r, m.look j = some u → p ∈ u.subs → (p.kids.map fun c => c.data.1) = l ++ c :: r → nx = r.head? := by
  obtain ⟨G, K, T, I, B⟩ := hm
  obtain ⟨hu, hx⟩ := I.shown.mp hc
  have hv : G.IsVal c := by
    obtain ⟨k, r, h1, h2, h3⟩ := I.root_handle hu hx
    rcases h3.cases_tail with e | ⟨p, -, h4⟩
    · rw [← e]; exact I.isV h1
    · exact I.kv p c h4
  obtain ⟨m', t, e1, Y, e2, e3, e4⟩ := I.iterNext B hi hu hx hv
  refine ⟨m', t, G.next c, e1, Y, e2, e3.root, e4, fun hp => ?_, fun j u p l r hj hp hk => ?_⟩
  · rw [I.hasParent hu hx] at hp
    exact (I.inv.l.root c hu (by simp) (by simpa using hp)).2
  · obtain ⟨a, h1, h2⟩ := I.look_iff.mp hj
    obtain ⟨b, h3, h4⟩ := h2.sub hp
    cases p with
    | node x ts =>
      simp only [Den_node] at h4
      have hK : K b = l ++ c :: r := by rw [← h4.2.kidIds]; exact hk
      have hb := I.inv.reach_used (I.tgt j a h1).2.1 h3
      have := I.inv.l.links b hb
      rw [hK, links_append] at this
      simpa [Links] using this.2.2.1

theorem si_iterNext_stay (hm : SI m) {i : Var} {n : Nat} (hi : m.refs i = some (.iter ⟨none, n + 1⟩)) :
    ∃ m', rstep m (.iterNext i) = .ok m' .none ∧ SI m' ∧ m'.refs = upd m.refs i (some (.iter ⟨none, n⟩)) ∧ (∀ j, m'.look j = m.look j) ∧
      m'.excl.store = m.excl.store := by
  have e : rstep m (.iterNext i) = .ok ⟨m.heap, m.env, upd m.refs i (some (.iter ⟨none, n⟩)), m.fresh⟩ .none := by
    simp [rstep, hi, RMachine.run, iterRcNext, Trees.M.bind_apply, RawIter.next, uncountedNext, RMachine.retRc]
  refine ⟨_, e, ?_⟩
  obtain ⟨G, K, T, I, B⟩ := hm
  obtain ⟨I1, B1⟩ := I.iter_same B (it' := ⟨none, n⟩) hi
  exact ⟨⟨G, K, T, I1, B1⟩, rfl, fun j => I.look_congr I1 rfl fun _ _ _ _ => ⟨rfl, rfl⟩, rfl⟩

end
end Trees
