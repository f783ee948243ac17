import Verif.Proof.Refine
/-
Simulation lemmas for allocation, destruction, splicing, assignment.
-/
namespace Trees
set_option linter.unusedSimpArgs false
variable {α : Type}

section
variable {m : Machine α} {K : Addr → List Addr} {S : Store α}

theorem MInv.fresh_ne (M : MInv m K) {x hd} (hx : m.env x = some hd) : x ≠ m.fresh := by
  rintro rfl
  have := M.fr m.fresh (Nat.le_refl _)
  rw [hx] at this; simp at this

/-- Binding a handle to a newly built tree or forest, all of whose nodes are new. -/
theorem sim_bind_new (M : MInv m K) (A : Abs m K S) {h' : Heap α} {K' : Addr → List Addr} {hd : Handle} {v : Val α}
    (hI : Inv h' K') (hS : SInv h') (hkv : ∀ a c, c ∈ K' a → h'.IsVal c)
    (F : Frame m.heap K h' K' (fun _ => False)) (hup : ∀ b, m.heap.Used b → h'.up b = m.heap.up b)
    (hnew : ∀ b, h'.Used b → m.heap.Used b ∨ (h'.up b = none → b = hd.addr)) (hn : ¬ m.heap.Used hd.addr)
    (ho : HOK h' hd) (hden : HDen h' K' hd v) (hlog : h'.log = m.heap.log) :
    Sim (m.retVar h' m.env hd) (.ok (S.bind v) (.var S.fresh)) := by
  have hne : ∀ z hz, m.env z = some hz → hz.addr ≠ hd.addr := by
    intro z hz h1 e
    exact hn (e ▸ (M.hnd z hz h1).used)
  have henv : ∀ z hz, upd m.env m.fresh (some hd) z = some hz →
      (z = m.fresh ∧ hz = hd) ∨ (z ≠ m.fresh ∧ m.env z = some hz) := by
    intro z hz h1
    simp only [upd_apply] at h1
    split at h1
    · exact .inl ⟨by assumption, (Option.some.inj h1).symm⟩
    · exact .inr ⟨by assumption, h1⟩
  refine ⟨by rw [A.fresh], K', ⟨hI, hS, hkv, ?_, ?_, ?_, ?_⟩, ⟨?_, by simp [Store.bind, A.fresh], ?_⟩⟩
  · intro z hz h1
    rcases henv z hz h1 with ⟨_, rfl⟩ | ⟨_, h3⟩
    · exact ho
    · have h4 := M.hnd z hz h3
      exact hok_frame F h4 (by simp) (by rw [hup _ h4.used]; exact h4.root)
  · intro z w hz hw h1 h2 e
    rcases henv z hz h1 with ⟨e1, rfl⟩ | ⟨_, h3⟩ <;> rcases henv w hw h2 with ⟨e2, rfl⟩ | ⟨_, h4⟩
    · rw [e1, e2]
    · exact absurd e.symm (hne w hw h4)
    · exact absurd e (hne z hz h3)
    · exact M.dist z w hz hw h3 h4 e
  · intro b hb hb2
    rcases hnew b hb with h1 | h1
    · obtain ⟨z, hz, h2, h3⟩ := M.all b h1 (by rw [← hup b h1]; exact hb2)
      refine ⟨z, hz, ?_, h3⟩
      simp [upd_apply, M.fresh_ne h2, h2]
    · exact ⟨m.fresh, hd, by simp, (h1 hb2).symm⟩
  · intro z hz
    show upd m.env m.fresh (some hd) z = none
    simp only at hz
    have : z ≠ m.fresh := by omega
    simp only [upd_apply, this, if_false]
    exact M.fr z (by omega)
  · intro z
    show match upd m.env m.fresh (some hd) z with
      | none => _
      | some hd => _
    by_cases hzf : z = m.fresh
    · subst hzf
      simp only [upd_self]
      exact ⟨v, by simp [Store.bind, A.fresh], hden⟩
    · simp only [upd_apply, hzf, if_false]
      have hA := A.vars z
      cases hz : m.env z with
      | none =>
        rw [hz] at hA
        simpa [Store.bind, hzf, A.fresh] using hA
      | some hd' =>
        rw [hz] at hA
        obtain ⟨w, e, hw⟩ := hA
        exact ⟨w, by simpa [Store.bind, hzf, A.fresh] using e, hden_frame F M.inv (M.hnd z hd' hz) hw (by simp)⟩
  · show S.dropped = h'.log
    rw [hlog]; exact A.log

theorem upd_none_env {env : Var → Option Handle} {x : Var} {z hz} (h : upd env x none z = some hz) :
    z ≠ x ∧ env z = some hz := by
  simp only [upd_apply] at h
  split at h
  · simp at h
  · exact ⟨by assumption, h⟩

/-- Dropping the value of a variable. -/
theorem minv_drop (M : MInv m K) (A : Abs m K S) {h' : Heap α} {K' : Addr → List Addr} {x : Var} {hd : Handle}
    {lg : List α} (hx : m.env x = some hd)
    (D : Dropped m.heap K hd.addr lg h' K' (fun _ => 0)) :
    MInv ⟨h', upd m.env x none, m.fresh⟩ K' ∧
      Abs ⟨h', upd m.env x none, m.fresh⟩ K' ((S.set x none).drop lg) := by
  have hF : Frame m.heap K h' K' (Reach K hd.addr) := by
    intro b hb hT
    exact ⟨(D.sh.used b).mpr ⟨hb, hT⟩, D.sh.kids b hb hT, by simp [Heap.val, D.sh.data b hb hT]⟩
  have hdis : ∀ z hz, m.env z = some hz → z ≠ x → ∀ b, Reach K hz.addr b → ¬ Reach K hd.addr b := by
    intro z hz h1 h2 b h3 h4
    have := M.inv.root_disjoint (M.hnd z hz h1).root (M.hnd x hd hx).root h3 h4
    exact h2 (M.dist z x hz hd h1 hx this)
  refine ⟨⟨D.inv, D.st, ?_, ?_, ?_, ?_, ?_⟩, ⟨?_, ?_, ?_⟩⟩
  · intro b c hc
    have hUb := D.inv.used_parent hc
    have h1 := (D.sh.used b).mp hUb
    have hUc := (D.sh.used c).mp (D.inv.used_of_mem hc)
    rw [D.sh.kids b h1.1 h1.2] at hc
    have := M.kv b c hc
    simp only [Heap.IsVal] at this ⊢
    rw [D.sh.data c hUc.1 hUc.2]; exact this
  · intro z hz h1
    obtain ⟨h2, h3⟩ := upd_none_env h1
    have h4 := M.hnd z hz h3
    have h5 := hdis z hz h3 h2 _ (.refl _)
    exact hok_frame hF h4 h5 (by rw [D.sh.up _ h4.used h5]; exact h4.root)
  · intro z w hz hw h1 h2 e
    exact M.dist z w hz hw (upd_none_env h1).2 (upd_none_env h2).2 e
  · intro b hb hb2
    have h1 := (D.sh.used b).mp hb
    obtain ⟨z, hz, h2, h3⟩ := M.all b h1.1 (by rw [← D.sh.up b h1.1 h1.2]; exact hb2)
    refine ⟨z, hz, ?_, h3⟩
    have : z ≠ x := by
      rintro rfl
      rw [hx] at h2
      obtain rfl := Option.some.inj h2
      subst h3
      exact h1.2 (.refl _)
    simp [upd_apply, this, h2]
  · intro z hz
    show upd m.env x none z = none
    simp only [upd_apply]; split
    · rfl
    · exact M.fr z hz
  · intro z
    show match upd m.env x none z with
      | none => _
      | some hd => _
    by_cases hzx : z = x
    · subst hzx
      simp [Store.set, Store.drop]
    · simp only [upd_apply, hzx, if_false]
      have hA := A.vars z
      cases hz : m.env z with
      | none => rw [hz] at hA; simpa [Store.set, Store.drop, hzx] using hA
      | some hd' =>
        rw [hz] at hA
        obtain ⟨w, e, hw⟩ := hA
        exact ⟨w, by simpa [Store.set, Store.drop, hzx] using e, hden_frame hF M.inv (M.hnd z hd' hz) hw (hdis z hd' hz hzx)⟩
  · exact A.fresh
  · show S.dropped ++ lg = h'.log
    rw [D.sh.log, A.log]

theorem HDen.dropped {D : Nat → Nat} {h : Heap α} (hI : Inv h K) (hS : SInvD h D) {hd : Handle} {v : Val α} (ho : HOK h hd)
    (hden : HDen h K hd v) (hn : hd.isIter = false) :
    ∃ h' K', dropRoot hd.addr h = .ok () h' ∧ Dropped h K hd.addr v.post h' K' D := by
  obtain ⟨h', K', e, H⟩ := dropRoot_ok hI hS ho.used ho.root hden.kids
  refine ⟨h', K', e, ?_⟩
  have hk := ho.kind
  cases hd <;> cases v <;> simp only [HDen] at hden
  · rename_i r t
    cases t with
    | node d ts =>
      simp only [Den_node] at hden
      simp only [Handle.addr, hden.1, Val.kids, RTree.kids_node] at H
      simpa [Val.post, RTree.post, Handle.addr] using H
  · simp only [HKind] at hk
    simp only [Handle.addr, hk, Val.kids] at H
    simpa [Val.post, Handle.addr] using H
  · simp [Handle.isIter] at hn

/-- Splicing a forest into the child list of a node. -/
theorem sim_splice (M : MInv m K) (A : Abs m K S) {x p hd u} {v : Val α} {us} (a : At m K S x p hd u v us)
    {y g ts} (hxy : x ≠ y) (hy : m.env y = some (.forest g)) (hden : DenL m.heap.val K (K g) ts)
    {ks : List Addr} {vs : List (RTree α)} (hks : ∀ c, c ∈ ks ↔ c ∈ K u ∨ c ∈ K g)
    (hd2 : ∀ v' K'', DenL v' K'' (K u) us → DenL v' K'' (K g) ts → DenL v' K'' ks vs)
    {h' : Heap α} {K' : Addr → List Addr} (P : Spliced m.heap K (fun _ => 0) u g ks h' K')
    {f : List (RTree α) → List (RTree α)} (hf : f us = vs) :
    Sim (m.ret h' (m.setEnv y none) .unit) (.ok ((S.set y none).setKids x v p f) .unit) := by
  have hog := M.hnd y _ hy
  have hgr : m.heap.up g = none := hog.root
  have hTu : ¬ Reach K g u := a.other M hy (fun e => hxy e.symm)
  have hug : u ≠ g := by rintro rfl; exact hTu (.refl _)
  have hnr : ∀ b, Reach K b g → b = g := by
    intro b hb
    rcases hb.cases_tail with e | ⟨q, _, h2⟩
    · exact e
    · exact absurd h2 (M.inv.not_mem_of_root hgr)
  have hF : Frame m.heap K h' K' (fun b => b = u ∨ b = g) := by
    intro b hb hT
    simp only [not_or] at hT
    exact ⟨(P.used b).mpr ⟨hb, hT.2⟩, P.kids b hb hT.1 hT.2, by simp [Heap.val, P.data b hb hT.2]⟩
  have hval : ∀ b, m.heap.Used b → b ≠ g → h'.val b = m.heap.val b := by
    intro b hb hbg; simp [Heap.val, P.data b hb hbg]
  have hsub : ∀ c, c ∈ K u ∨ c ∈ K g → ∀ b, Reach K c b → K' b = K b ∧ h'.val b = m.heap.val b := by
    intro c hc b hb
    have hUc : m.heap.Used c := by
      rcases hc with hc | hc <;> exact M.inv.used_of_mem hc
    have hUb := M.inv.reach_used hUc hb
    have hbg : b ≠ g := by
      rintro rfl
      have := hnr c hb
      subst this
      rcases hc with hc | hc
      · exact M.inv.not_mem_of_root hgr hc
      · exact M.inv.not_mem_of_root hgr hc
    have hbu : b ≠ u := by
      rintro rfl
      rcases hc with hc | hc
      · exact M.inv.not_reach_up hc hb
      · exact hTu (.step hc hb)
    exact ⟨P.kids b hUb hbu hbg, hval b hUb hbg⟩
  have hroot : ∀ z hz, m.env z = some hz → z ≠ y → hz.addr ≠ g ∧ h'.up hz.addr = none := by
    intro z hz h1 h2
    have h3 : hz.addr ≠ g := fun e => h2 (M.dist z y hz _ h1 hy e)
    refine ⟨h3, ?_⟩
    rw [P.up _ (M.hnd z hz h1).used h3, if_neg]
    · exact (M.hnd z hz h1).root
    · exact M.inv.not_mem_of_root (M.hnd z hz h1).root
  have hok : ∀ z hz, m.env z = some hz → z ≠ y → HOK h' hz := by
    intro z hz h1 h2
    obtain ⟨h3, h4⟩ := hroot z hz h1 h2
    have ho := M.hnd z hz h1
    refine ⟨(P.used _).mpr ⟨ho.used, h3⟩, h4, ?_⟩
    have := ho.kind
    have hv := hval _ ho.used h3
    cases hz <;> simp only [HKind, Heap.isVal_iff, Handle.addr] at this hv ⊢ <;> rw [hv] <;> exact this
  refine ⟨rfl, K', ⟨P.inv, P.st, ?_, ?_, ?_, ?_, ?_⟩, ⟨?_, A.fresh, ?_⟩⟩
  · intro b c hc
    have hUb := (P.used b).mp (P.inv.used_parent hc)
    have hUc := (P.used c).mp (P.inv.used_of_mem hc)
    have : m.heap.IsVal c := by
      by_cases hbu : b = u
      · subst hbu
        rw [P.kidsU] at hc
        rcases (hks c).mp hc with h1 | h1 <;> exact M.kv _ c h1
      · rw [P.kids b hUb.1 hbu hUb.2] at hc
        exact M.kv b c hc
    simp only [Heap.IsVal] at this ⊢
    rw [P.data c hUc.1 hUc.2]; exact this
  · intro z hz h1
    obtain ⟨h2, h3⟩ := upd_none_env h1
    exact hok z hz h3 h2
  · intro z w hz hw h1 h2 e
    exact M.dist z w hz hw (upd_none_env h1).2 (upd_none_env h2).2 e
  · intro b hb hb2
    have h1 := (P.used b).mp hb
    have h3 : m.heap.up b = none := by
      have := P.up b h1.1 h1.2
      simp only at hb2
      rw [hb2] at this
      split at this
      · simp at this
      · exact this.symm
    obtain ⟨z, hz, h4, h5⟩ := M.all b h1.1 h3
    refine ⟨z, hz, ?_, h5⟩
    have : z ≠ y := by
      rintro rfl
      rw [hy] at h4
      obtain rfl := Option.some.inj h4
      exact h1.2 h5.symm
    simp [Machine.setEnv, upd_apply, this, h4]
  · intro z hz
    show upd m.env y none z = none
    simp only [upd_apply]; split
    · rfl
    · exact M.fr z hz
  · intro z
    show match upd m.env y none z with
      | none => _
      | some hd => _
    by_cases hzy : z = y
    · subst hzy
      have hzx : z ≠ x := fun e => hxy e.symm
      simp [Store.setKids, Store.set, hzx]
    · simp only [upd_apply, hzy, if_false]
      by_cases hzx : z = x
      · subst hzx
        rw [a.env]
        refine ⟨_, by simp [Store.setKids, Store.set]; rfl, ?_⟩
        have hox := M.hnd z hd a.env
        have hng : ∀ b, Reach K hd.addr b → b ≠ g := by
          rintro b hb rfl
          have := hnr _ hb
          exact hzy (M.dist z y _ _ a.env hy this)
        refine hden_modify (us := us) M.inv a.den a.res a.kids ?_ ?_ ?_
        · intro b hr hb
          have : b ≠ u := by rintro rfl; exact hb (.refl _)
          exact P.kids b (M.inv.reach_used hox.used hr) this (hng b hr)
        · intro b hr _
          exact hval b (M.inv.reach_used hox.used hr) (hng b hr)
        · rw [P.kidsU, hf]
          exact hd2 _ _ (a.kden.congr (fun c hc => hsub c (.inl hc))) (hden.congr (fun c hc => hsub c (.inr hc)))
      · have hA := A.vars z
        cases hz : m.env z with
        | none =>
          rw [hz] at hA
          simpa [Store.setKids, Store.set, hzx, hzy] using hA
        | some hd' =>
          rw [hz] at hA
          obtain ⟨w, e, hw⟩ := hA
          refine ⟨w, by simpa [Store.setKids, Store.set, hzx, hzy] using e, ?_⟩
          refine hden_frame hF M.inv (M.hnd z hd' hz) hw ?_
          rintro b hb (rfl | rfl)
          · exact a.other M hz hzx hb
          · exact (hroot z hd' hz hzy).1 (hnr _ hb)
  · show S.dropped = h'.log
    rw [P.log]; exact A.log

/-- Move the value of `x` to the fresh variable as an `IntoIter`. -/
theorem sim_toIter (M : MInv m K) (A : Abs m K S) {x g} {ts : List (RTree α)} (hx : m.env x = some (.forest g))
    (hv : S.vars x = some (.forest ts)) :
    Sim (m.retVar m.heap (m.setEnv x none) (.iter g)) (.ok ((S.set x none).bind (.iter ts)) (.var S.fresh)) := by
  have hxf := M.fresh_ne hx
  have ho := M.hnd x _ hx
  have henv : ∀ z hz, upd (m.setEnv x none) m.fresh (some (.iter g)) z = some hz →
      (z = m.fresh ∧ hz = .iter g) ∨ (z ≠ m.fresh ∧ z ≠ x ∧ m.env z = some hz) := by
    intro z hz h1
    simp only [upd_apply] at h1
    split at h1
    · exact .inl ⟨by assumption, (Option.some.inj h1).symm⟩
    · exact .inr ⟨by assumption, upd_none_env h1⟩
  refine ⟨by rw [A.fresh], K, ⟨M.inv, M.st, M.kv, ?_, ?_, ?_, ?_⟩, ⟨?_, by simp [Store.bind, Store.set, A.fresh], A.log⟩⟩
  · intro z hz h1
    rcases henv z hz h1 with ⟨_, rfl⟩ | ⟨_, _, h3⟩
    · exact ⟨ho.used, ho.root, ho.kind⟩
    · exact M.hnd z hz h3
  · intro z w hz hw h1 h2 e
    rcases henv z hz h1 with ⟨e1, rfl⟩ | ⟨_, h5, h3⟩ <;> rcases henv w hw h2 with ⟨e2, rfl⟩ | ⟨_, h6, h4⟩
    · rw [e1, e2]
    · exact absurd (M.dist w x _ _ h4 hx e.symm) h6
    · exact absurd (M.dist z x _ _ h3 hx e) h5
    · exact M.dist z w hz hw h3 h4 e
  · intro b hb hb2
    obtain ⟨z, hz, h2, h3⟩ := M.all b hb hb2
    by_cases hzx : z = x
    · subst hzx
      rw [hx] at h2
      obtain rfl := Option.some.inj h2
      exact ⟨m.fresh, .iter g, by simp, h3⟩
    · refine ⟨z, hz, ?_, h3⟩
      simp [upd_apply, Machine.setEnv, M.fresh_ne h2, hzx, h2]
  · intro z hz
    show upd (m.setEnv x none) m.fresh (some (.iter g)) z = none
    simp only at hz
    have : z ≠ m.fresh := by omega
    simp only [Machine.setEnv, upd_apply, this, if_false]
    split
    · rfl
    · exact M.fr z (by omega)
  · intro z
    show match upd (m.setEnv x none) m.fresh (some (.iter g)) z with
      | none => _
      | some hd => _
    have hAx := A.vars x
    rw [hx] at hAx
    obtain ⟨w, e, hw⟩ := hAx
    rw [hv] at e
    obtain rfl := Option.some.inj e
    by_cases hzf : z = m.fresh
    · subst hzf
      simp only [upd_self]
      exact ⟨.iter ts, by simp [Store.bind, Store.set, A.fresh], hw⟩
    · simp only [upd_apply, hzf, if_false, Machine.setEnv]
      by_cases hzx : z = x
      · subst hzx; simp [Store.bind, Store.set, A.fresh, hxf]
      · simp only [hzx, if_false]
        have hA := A.vars z
        cases hz : m.env z with
        | none => rw [hz] at hA; simpa [Store.bind, Store.set, A.fresh, hzf, hzx] using hA
        | some hd' => rw [hz] at hA; simpa [Store.bind, Store.set, A.fresh, hzf, hzx] using hA

theorem list_split {β : Type} {l : List β} {i : Nat} {b : β} (h : l[i]? = some b) :
    l = l.take i ++ b :: l.drop (i + 1) := by
  obtain ⟨hi, rfl⟩ := List.getElem?_eq_some_iff.mp h
  rw [List.getElem_cons_drop, List.take_append_drop]

/-- The list around a child. -/
theorem AtC.split {x q i hd u n} {v : Val α} {us t} (c : AtC m K S x q i hd u n v us t) :
    K u = (K u).take i ++ n :: (K u).drop (i + 1) ∧ us = us.take i ++ t :: us.drop (i + 1) ∧
    DenL m.heap.val K ((K u).take i) (us.take i) ∧ DenL m.heap.val K ((K u).drop (i + 1)) (us.drop (i + 1)) := by
  have h1 := list_split c.get
  have h2 := list_split c.getT
  have h3 := DenL_forall₂.mp c.par.kden
  exact ⟨h1, h2, DenL_forall₂.mpr (List.forall₂_take i h3), DenL_forall₂.mpr (List.forall₂_drop (i+1) h3)⟩

/-- Assigning the data of a node. -/
theorem sim_setData (M : MInv m K) (A : Abs m K S) {x hd} {v' : Val α} {n : Addr} {d old : α}
    (hx : m.env x = some hd) (hn : Reach K hd.addr n)
    {h' : Heap α} (hI : Inv h' K) (hS : SInv h') (hU : ∀ x, h'.Used x ↔ m.heap.Used x)
    (hval : h'.val = upd m.heap.val n (some d)) (hup : h'.up = m.heap.up) (hlog : h'.log = m.heap.log ++ [old])
    (hv : m.heap.IsVal n)
    (hden : HDen h' K hd v') :
    Sim (m.ret h' m.env .unit) (.ok ((S.set x (some v')).drop [old]) .unit) := by
  have hiv : ∀ b, h'.IsVal b ↔ m.heap.IsVal b := by
    intro b
    simp only [Heap.isVal_iff, hval, upd_apply]
    split
    · rename_i e; subst e; simpa using Heap.isVal_iff.mp hv
    · rfl
  have hF : Frame m.heap K h' K (· = n) := by
    intro b hb hT
    exact ⟨(hU b).mpr hb, rfl, by rw [hval]; simp [upd_apply, hT]⟩
  refine ⟨rfl, K, ⟨hI, hS, ?_, ?_, M.dist, ?_, M.fr⟩, ⟨?_, A.fresh, ?_⟩⟩
  · intro a c hc; exact (hiv c).mpr (M.kv a c hc)
  · intro z hz h1
    have ho := M.hnd z hz h1
    refine ⟨(hU _).mpr ho.used, by simp only [hup]; exact ho.root, ?_⟩
    have := ho.kind
    have hnv : ∀ b, m.heap.val b = none → h'.val b = none := by
      intro b hb
      rw [hval]; simp only [upd_apply]; split
      · rename_i e; subst e
        obtain ⟨d', e'⟩ := Heap.isVal_iff.mp hv
        rw [hb] at e'; simp at e'
      · exact hb
    cases hz <;> simp only [HKind] at this ⊢
    · exact (hiv _).mpr this
    · exact hnv _ this
    · exact hnv _ this
  · intro b hb hb2
    simp only [hup] at hb2
    exact M.all b ((hU b).mp hb) hb2
  · intro z
    show match m.env z with
      | none => _
      | some hd => _
    by_cases hzx : z = x
    · subst hzx
      rw [hx]
      exact ⟨v', by simp [Store.set, Store.drop], hden⟩
    · have hA := A.vars z
      cases hz : m.env z with
      | none => rw [hz] at hA; simpa [Store.set, Store.drop, hzx] using hA
      | some hd' =>
        rw [hz] at hA
        obtain ⟨w, e, hw⟩ := hA
        refine ⟨w, by simpa [Store.set, Store.drop, hzx] using e, hden_frame hF M.inv (M.hnd z hd' hz) hw ?_⟩
        rintro b hb rfl
        have := M.inv.root_disjoint (M.hnd z hd' hz).root (M.hnd x hd hx).root hb hn
        exact hzx (M.dist z x _ _ hz hx this)
  · show S.dropped ++ [old] = h'.log
    rw [hlog, A.log]

/-- `Tree::abandon`. -/
theorem sim_abandon (M : MInv m K) (A : Abs m K S) {x r} {d0 d : α} {ts : List (RTree α)} (hx : m.env x = some (.tree r))
    (hden : Den m.heap.val K r (.node d0 ts))
    {h' : Heap α} {n : Addr} (hn : n = m.heap.nextAddr)
    (hI : Inv h' (upd K n [])) (hS : SInv h') (hU : ∀ x, h'.Used x ↔ m.heap.Used x ∨ x = n)
    (hval : h'.val = upd (upd m.heap.val r none) n (some d)) (hup : h'.up = upd m.heap.up n none)
    (hlog : h'.log = m.heap.log) (hK : ∀ x, m.heap.Used x → K x = upd K n [] x) :
    Sim (m.retVar h' (m.setEnv x (some (.tree n))) (.forest r))
      (.ok ((S.set x (some (.tree (.node d [])))).bind (.forest ts)) (.var S.fresh)) := by
  have ho := M.hnd x _ hx
  have hxf := M.fresh_ne hx
  have hnu : ¬ m.heap.Used n := fun h => by
    have := M.st.liveB n h.1; rw [hn] at this; exact Nat.lt_irrefl _ this
  have hrn : r ≠ n := fun e => hnu (e ▸ ho.used)
  rw [Den_node] at hden
  have hF : Frame m.heap K h' (upd K n []) (· = r) := by
    intro b hb hT
    have : b ≠ n := fun e => hnu (e ▸ hb)
    exact ⟨(hU b).mpr (.inl hb), (hK b hb).symm, by rw [hval]; simp [upd_apply, hT, this]⟩
  have hup' : ∀ b, m.heap.Used b → h'.up b = m.heap.up b := by
    intro b hb
    have : b ≠ n := fun e => hnu (e ▸ hb)
    rw [hup]; simp [upd_apply, this]
  have hnr : ∀ z hz, m.env z = some hz → z ≠ x → ∀ b, Reach K hz.addr b → b ≠ r := by
    rintro z hz h1 h2 b hb rfl
    exact h2 (M.dist z x _ _ h1 hx (M.inv.root_disjoint (M.hnd z hz h1).root ho.root hb (.refl _)))
  have henv : ∀ z hz, upd (m.setEnv x (some (.tree n))) m.fresh (some (.forest r)) z = some hz →
      (z = m.fresh ∧ hz = .forest r) ∨ (z = x ∧ hz = .tree n) ∨ (z ≠ m.fresh ∧ z ≠ x ∧ m.env z = some hz) := by
    intro z hz h1
    simp only [upd_apply] at h1
    split at h1
    · exact .inl ⟨by assumption, (Option.some.inj h1).symm⟩
    · simp only [Machine.setEnv, upd_apply] at h1
      split at h1
      · exact .inr (.inl ⟨by assumption, (Option.some.inj h1).symm⟩)
      · exact .inr (.inr ⟨by assumption, by assumption, h1⟩)
  have hvr : h'.val r = none := by rw [hval]; simp [upd_apply, hrn]
  have hvn : h'.val n = some d := by rw [hval]; simp
  refine ⟨by rw [A.fresh], upd K n [], ⟨hI, hS, ?_, ?_, ?_, ?_, ?_⟩, ⟨?_, by simp [Store.bind, Store.set, A.fresh], ?_⟩⟩
  · intro b c hc
    simp only [upd_apply] at hc
    split at hc
    · simp at hc
    · have h1 := M.kv b c hc
      have hUc := M.inv.used_of_mem hc
      have hcr : c ≠ r := by rintro rfl; exact M.inv.not_mem_of_root ho.root hc
      have hcn : c ≠ n := fun e => hnu (e ▸ hUc)
      rw [Heap.isVal_iff] at h1 ⊢
      rw [hval]; simpa [upd_apply, hcr, hcn] using h1
  · intro z hz h1
    rcases henv z hz h1 with ⟨_, rfl⟩ | ⟨_, rfl⟩ | ⟨_, h2, h3⟩
    · exact ⟨(hU _).mpr (.inl ho.used), (hup' _ ho.used).trans ho.root, hvr⟩
    · exact ⟨(hU _).mpr (.inr rfl), by simp [Handle.addr, hup], Heap.isVal_iff.mpr ⟨d, hvn⟩⟩
    · have h4 := M.hnd z hz h3
      exact hok_frame hF h4 (hnr z hz h3 h2 _ (.refl _)) (by rw [hup' _ h4.used]; exact h4.root)
  · have k1 : ∀ z hz, m.env z = some hz → hz.addr ≠ n := fun z hz h1 e => hnu (e ▸ (M.hnd z hz h1).used)
    intro z w hz hw h1 h2 e
    rcases henv z hz h1 with ⟨e1, rfl⟩ | ⟨e1, rfl⟩ | ⟨_, h5, h3⟩ <;>
      rcases henv w hw h2 with ⟨e2, rfl⟩ | ⟨e2, rfl⟩ | ⟨_, h6, h4⟩
    · rw [e1, e2]
    · exact absurd e hrn
    · exact absurd e.symm (hnr w hw h4 h6 _ (.refl _))
    · exact absurd e.symm hrn
    · rw [e1, e2]
    · exact absurd e.symm (k1 w hw h4)
    · exact absurd e (hnr z hz h3 h5 _ (.refl _))
    · exact absurd e (k1 z hz h3)
    · exact M.dist z w hz hw h3 h4 e
  · intro b hb hb2
    rcases (hU b).mp hb with h1 | rfl
    · obtain ⟨z, hz, h2, h3⟩ := M.all b h1 (by rw [← hup' b h1]; exact hb2)
      by_cases hzx : z = x
      · subst hzx
        rw [hx] at h2
        obtain rfl := Option.some.inj h2
        exact ⟨m.fresh, .forest r, by simp, h3⟩
      · exact ⟨z, hz, by simp [upd_apply, Machine.setEnv, M.fresh_ne h2, hzx, h2], h3⟩
    · exact ⟨x, .tree b, by simp [upd_apply, Machine.setEnv, hxf], rfl⟩
  · intro z hz
    show upd (m.setEnv x (some (.tree n))) m.fresh (some (.forest r)) z = none
    simp only at hz
    have : z ≠ m.fresh := by omega
    have hzx : z ≠ x := by
      rintro rfl
      have := M.fr z (by omega)
      rw [hx] at this; simp at this
    simp only [Machine.setEnv, upd_apply, this, hzx, if_false]
    exact M.fr z (by omega)
  · intro z
    show match upd (m.setEnv x (some (.tree n))) m.fresh (some (.forest r)) z with
      | none => _
      | some hd => _
    by_cases hzf : z = m.fresh
    · subst hzf
      simp only [upd_self]
      refine ⟨.forest ts, by simp [Store.bind, Store.set, A.fresh], ?_⟩
      simp only [HDen]
      rw [← hK r ho.used]
      refine hden.2.congr (fun c hc b hb => ?_)
      have hUb := M.inv.reach_used (M.inv.used_of_mem hc) hb
      have h1 := hF b hUb (by rintro rfl; exact M.inv.not_reach_up hc hb)
      exact h1.2
    · simp only [upd_apply, hzf, if_false, Machine.setEnv]
      by_cases hzx : z = x
      · subst hzx
        simp only [if_true]
        refine ⟨.tree (.node d []), by simp [Store.bind, Store.set, A.fresh, hxf], ?_⟩
        simp [HDen, hvn]
      · simp only [hzx, if_false]
        have hA := A.vars z
        cases hz : m.env z with
        | none => rw [hz] at hA; simpa [Store.bind, Store.set, A.fresh, hzf, hzx] using hA
        | some hd' =>
          rw [hz] at hA
          obtain ⟨w, e, hw⟩ := hA
          exact ⟨w, by simpa [Store.bind, Store.set, A.fresh, hzf, hzx] using e,
            hden_frame hF M.inv (M.hnd z hd' hz) hw (hnr z hd' hz hzx)⟩
  · show S.dropped = h'.log
    rw [hlog]; exact A.log

end
end Trees
