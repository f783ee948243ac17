import Verif.Proof.Sim
/-
Every call of the exclusive API refines its specification.
-/
namespace Trees
set_option linter.unusedSimpArgs false
variable {α : Type}

section
variable {m : Machine α} {K : Addr → List Addr} {S : Store α}

theorem At.reach {x p hd n} {v : Val α} {us} (a : At m K S x p hd n v us) : Reach K hd.addr n := resolve_reach a.res

theorem At.used (M : MInv m K) {x p hd n} {v : Val α} {us} (a : At m K S x p hd n v us) : m.heap.Used n :=
  M.inv.reach_used (M.hnd x hd a.env).used a.reach

/-- Other variables do not reach the node. -/
theorem At.other (M : MInv m K) {x p hd n} {v : Val α} {us} (a : At m K S x p hd n v us) {z hz}
    (hz1 : m.env z = some hz) (hzx : z ≠ x) : ¬ Reach K hz.addr n := by
  intro hr
  have := M.inv.root_disjoint (M.hnd z hz hz1).root (M.hnd x hd a.env).root hr a.reach
  exact hzx (M.dist z x hz hd hz1 a.env this)

theorem At.rootOf (M : MInv m K) {x p hd n} {v : Val α} {us} (a : At m K S x p hd n v us) :
    RootOf m.heap n hd.addr := M.inv.rootOf_of_reach (M.hnd x hd a.env).root a.reach

theorem At.attach (M : MInv m K) {x p hd n} {v : Val α} {us} (a : At m K S x p hd n v us) {y t}
    (hy : m.env y = some (.tree t)) (hxy : x ≠ y) : Attach m.heap K n t := by
  have ho := M.hnd y _ hy
  refine ⟨M.inv, a.used M, ho.used, ho.kind, ho.root, hd.addr, a.rootOf M, ?_⟩
  intro e
  exact hxy (M.dist x y _ _ a.env hy e)

theorem sim_attach (M : MInv m K) (A : Abs m K S) {x p hd u} {v : Val α} {us} (a : At m K S x p hd u v us)
    {y t tt} (hxy : x ≠ y) (hy : m.env y = some (.tree t)) (hden : Den m.heap.val K t tt)
    {l r us1 us2} (hK : K u = l ++ r) (d1 : DenL m.heap.val K l us1) (d2 : DenL m.heap.val K r us2)
    {h' : Heap α} (same : Same m.heap h') (hI' : Inv h' (upd K u (l ++ t :: r)))
    {f : List (RTree α) → List (RTree α)} (hf : f us = us1 ++ tt :: us2) :
    Sim (m.ret h' (m.setEnv y none) .unit) (.ok ((S.set y none).setKids x v p f) .unit) := by
  have hot := M.hnd y _ hy
  have hox := M.hnd x hd a.env
  have hval : h'.val = m.heap.val := by funext b; simp [Heap.val, same.data]
  have hTu : ¬ Reach K t u := a.other M hy (fun e => hxy e.symm)
  have hF : Frame m.heap K h' (upd K u (l ++ t :: r)) (· = u) := by
    intro b hb hT
    exact ⟨(same.used b).mpr hb, by simp [upd_apply, hT], by rw [hval]⟩
  have hmem : ∀ b c, c ∈ upd K u (l ++ t :: r) b → c ∈ K b ∨ (b = u ∧ c = t) := by
    intro b c hc
    simp only [upd_apply] at hc
    split at hc
    · rename_i e; subst e
      rw [hK]
      simp only [List.mem_append, List.mem_cons] at hc ⊢
      tauto
    · exact .inl hc
  have hmem' : ∀ b c, c ∈ K b → c ∈ upd K u (l ++ t :: r) b := by
    intro b c hc
    simp only [upd_apply]
    split
    · rename_i e; subst e
      rw [hK] at hc
      simp only [List.mem_append, List.mem_cons] at hc ⊢
      tauto
    · exact hc
  have hroot : ∀ z hz, m.env z = some hz → z ≠ y → h'.up hz.addr = none := by
    intro z hz hz1 hzy
    rw [hI'.up_none_iff ((same.used _).mpr (M.hnd z hz hz1).used)]
    intro b hb
    rcases hmem b _ hb with h1 | ⟨_, h1⟩
    · exact M.inv.not_mem_of_root (M.hnd z hz hz1).root h1
    · exact hzy (M.dist z y hz _ hz1 hy h1)
  have henv : ∀ z hz, upd m.env y none z = some hz → z ≠ y ∧ m.env z = some hz := by
    intro z hz h1
    simp only [upd_apply] at h1
    split at h1
    · simp at h1
    · exact ⟨by assumption, h1⟩
  have hsub : ∀ c ∈ K u, ∀ b, Reach K c b → b ≠ u := by
    rintro c hc b hb rfl; exact M.inv.not_reach_up hc hb
  refine ⟨rfl, upd K u (l ++ t :: r), ⟨hI', M.st.same same, ?_, ?_, ?_, ?_, ?_⟩, ⟨?_, A.fresh, ?_⟩⟩
  · intro b c hc
    rw [Heap.isVal_iff, hval, ← Heap.isVal_iff]
    rcases hmem b c hc with h1 | ⟨_, rfl⟩
    · exact M.kv b c h1
    · exact hot.kind
  · intro z hz h1
    obtain ⟨h2, h3⟩ := henv z hz h1
    have ho := M.hnd z hz h3
    refine ⟨(same.used _).mpr ho.used, hroot z hz h3 h2, ?_⟩
    have := ho.kind
    cases hz <;> simp only [HKind, Heap.isVal_iff] at this ⊢ <;> rw [hval] <;> exact this
  · intro z w hz hw h1 h2 e
    exact M.dist z w hz hw (henv z hz h1).2 (henv w hw h2).2 e
  · intro b hb hup
    have hb' := (same.used b).mp hb
    have hn := (hI'.up_none_iff hb).mp hup
    have : m.heap.up b = none := (M.inv.up_none_iff hb').mpr (fun w hw => hn w (hmem' w b hw))
    obtain ⟨z, hz, h1, h2⟩ := M.all b hb' this
    refine ⟨z, hz, ?_, h2⟩
    have hzy : z ≠ y := by
      rintro rfl
      rw [hy] at h1
      obtain rfl := Option.some.inj h1
      simp only [Handle.addr] at h2
      subst h2
      exact hn u (by simp)
    simp [Machine.setEnv, upd_apply, hzy, h1]
  · intro z hz
    show upd m.env y none z = none
    simp only [upd_apply]; split
    · rfl
    · exact M.fr z hz
  · intro z
    show match upd m.env y none z with
      | none => _
      | some hd => _
    by_cases hzy : z = y
    · subst hzy
      have hzx : z ≠ x := fun e => hxy e.symm
      simp [Store.setKids, Store.set, hzx]
    · simp only [upd_apply, hzy, if_false]
      by_cases hzx : z = x
      · subst hzx
        rw [a.env]
        refine ⟨_, by simp [Store.setKids, Store.set]; rfl, ?_⟩
        have hm := modKids_congr (f := f) (g := fun _ => us1 ++ tt :: us2) a.kids hf
        rw [hm]
        refine hden_modify (us := us) M.inv a.den a.res a.kids ?_ ?_ ?_
        · intro b _ hb
          have : b ≠ u := by rintro rfl; exact hb (.refl _)
          simp [upd_apply, this]
        · intro b _ _; rw [hval]
        · rw [hval]
          simp only [upd_self]
          refine DenL.append (d1.congr ?_) ?_
          · intro c hc b hb
            have := hsub c (by rw [hK]; simp [hc]) b hb
            simp [upd_apply, this]
          · rw [DenL_cons]
            constructor
            · refine hden.congr (fun b hb => ?_)
              have : b ≠ u := by rintro rfl; exact hTu hb
              simp [upd_apply, this]
            · refine d2.congr ?_
              intro c hc b hb
              have := hsub c (by rw [hK]; simp [hc]) b hb
              simp [upd_apply, this]
      · have hA := A.vars z
        cases hz : m.env z with
        | none =>
          rw [hz] at hA
          simpa [Store.setKids, Store.set, hzx, hzy] using hA
        | some hd' =>
          rw [hz] at hA
          obtain ⟨w, e, hw⟩ := hA
          refine ⟨w, by simpa [Store.setKids, Store.set, hzx, hzy] using e, ?_⟩
          refine hden_frame hF M.inv (M.hnd z hd' hz) hw ?_
          rintro b hb rfl
          exact a.other M hz hzx hb
  · show S.dropped = h'.log
    rw [same.log]; exact A.log

theorem sim_remove (M : MInv m K) (A : Abs m K S) {x p hd u} {v : Val α} {us} (a : At m K S x p hd u v us)
    {c : Addr} {t : RTree α} {l r us1 us2} (hK : K u = l ++ c :: r) (d1 : DenL m.heap.val K l us1)
    (dc : Den m.heap.val K c t) (d2 : DenL m.heap.val K r us2)
    {h' : Heap α} (hR : Removed m.heap h' K u c (l ++ r))
    {f : List (RTree α) → List (RTree α)} (hf : f us = us1 ++ us2) :
    Sim (m.retVar h' m.env (.tree c)) (.ok ((S.setKids x v p f).bind (.tree t)) (.var S.fresh)) := by
  obtain ⟨same, hup, hI'⟩ := hR
  have hcK : c ∈ K u := by rw [hK]; simp
  have hUc := M.inv.used_of_mem hcK
  have hval : h'.val = m.heap.val := by funext b; simp [Heap.val, same.data]
  have hnd := M.inv.l.nodup u
  rw [hK] at hnd
  have hF : Frame m.heap K h' (upd K u (l ++ r)) (· = u) := by
    intro b hb hT
    exact ⟨(same.used b).mpr hb, by simp [upd_apply, hT], by rw [hval]⟩
  have hmem : ∀ b z, z ∈ upd K u (l ++ r) b → z ∈ K b := by
    intro b z hz
    simp only [upd_apply] at hz
    split at hz
    · rename_i e; subst e
      rw [hK]
      simp only [List.mem_append, List.mem_cons] at hz ⊢
      tauto
    · exact hz
  have hcn : ∀ b, c ∉ upd K u (l ++ r) b := by
    intro b hb
    have h1 := hmem b c hb
    have := M.inv.eq_of_mem h1 hcK
    subst this
    simp only [upd_self, List.mem_append] at hb
    simp only [List.nodup_append, List.nodup_cons] at hnd
    rcases hb with hb | hb
    · exact hnd.2.2 c hb c (by simp) rfl
    · exact hnd.2.1.1 hb
  have hfx : x ≠ m.fresh := by
    rintro rfl
    have := M.fr m.fresh (Nat.le_refl _)
    rw [a.env] at this; simp at this
  have hsub : ∀ c ∈ K u, ∀ b, Reach K c b → b ≠ u := by
    rintro c hc b hb rfl; exact M.inv.not_reach_up hc hb
  have hroot : ∀ z hz, m.env z = some hz → h'.up hz.addr = none := by
    intro z hz hz1
    rw [hI'.up_none_iff ((same.used _).mpr (M.hnd z hz hz1).used)]
    intro b hb
    exact M.inv.not_mem_of_root (M.hnd z hz hz1).root (hmem b _ hb)
  have henv : ∀ z hz, upd m.env m.fresh (some (.tree c)) z = some hz →
      (z = m.fresh ∧ hz = .tree c) ∨ (z ≠ m.fresh ∧ m.env z = some hz) := by
    intro z hz h1
    simp only [upd_apply] at h1
    split at h1
    · exact .inl ⟨by assumption, (Option.some.inj h1).symm⟩
    · exact .inr ⟨by assumption, h1⟩
  have hnec : ∀ z hz, m.env z = some hz → hz.addr ≠ c := by
    intro z hz h1 e
    have := (M.hnd z hz h1).root
    rw [e] at this
    exact M.inv.not_mem_of_root this hcK
  refine ⟨by rw [A.fresh], upd K u (l ++ r), ⟨hI', M.st.same same, ?_, ?_, ?_, ?_, ?_⟩, ⟨?_, by simp [Store.bind, Store.setKids, Store.set, A.fresh], ?_⟩⟩
  · intro b z hz
    rw [Heap.isVal_iff, hval, ← Heap.isVal_iff]
    exact M.kv b z (hmem b z hz)
  · intro z hz h1
    rcases henv z hz h1 with ⟨_, rfl⟩ | ⟨_, h3⟩
    · refine ⟨(same.used _).mpr hUc, (hI'.up_none_iff ((same.used _).mpr hUc)).mpr hcn, ?_⟩
      simp only [HKind, Heap.isVal_iff]; rw [hval, ← Heap.isVal_iff]; exact M.kv u c hcK
    · have ho := M.hnd z hz h3
      refine ⟨(same.used _).mpr ho.used, hroot z hz h3, ?_⟩
      have := ho.kind
      cases hz <;> simp only [HKind, Heap.isVal_iff] at this ⊢ <;> rw [hval] <;> exact this
  · intro z w hz hw h1 h2 e
    rcases henv z hz h1 with ⟨e1, rfl⟩ | ⟨_, h3⟩ <;> rcases henv w hw h2 with ⟨e2, rfl⟩ | ⟨_, h4⟩
    · rw [e1, e2]
    · exact absurd e.symm (hnec w hw h4)
    · exact absurd e (hnec z hz h3)
    · exact M.dist z w hz hw h3 h4 e
  · intro b hb hup'
    have hb' := (same.used b).mp hb
    by_cases hbc : b = c
    · exact ⟨m.fresh, .tree c, by simp, hbc.symm⟩
    · have : m.heap.up b = none := by
        have h2 : h'.up b = m.heap.up b := by rw [hup]; simp [upd_apply, hbc]
        rw [← h2]; exact hup'
      obtain ⟨z, hz, h1, h2⟩ := M.all b hb' this
      refine ⟨z, hz, ?_, h2⟩
      have : z ≠ m.fresh := by
        rintro rfl
        have := M.fr m.fresh (Nat.le_refl _)
        rw [h1] at this; simp at this
      simp [upd_apply, this, h1]
  · intro z hz
    show upd m.env m.fresh (some (.tree c)) z = none
    simp only at hz
    have : z ≠ m.fresh := by omega
    simp only [upd_apply, this, if_false]
    exact M.fr z (by omega)
  · intro z
    show match upd m.env m.fresh (some (.tree c)) z with
      | none => _
      | some hd => _
    by_cases hzf : z = m.fresh
    · subst hzf
      simp only [upd_self]
      refine ⟨.tree t, by simp [Store.bind, Store.setKids, Store.set, A.fresh], ?_⟩
      simp only [HDen]
      rw [hval]
      refine dc.congr (fun b hb => ?_)
      have := hsub c hcK b hb
      simp [upd_apply, this]
    · simp only [upd_apply, hzf, if_false]
      by_cases hzx : z = x
      · subst hzx
        rw [a.env]
        refine ⟨_, by simp [Store.bind, Store.setKids, Store.set, A.fresh, hzf]; rfl, ?_⟩
        have hm := modKids_congr (f := f) (g := fun _ => us1 ++ us2) a.kids hf
        rw [hm]
        refine hden_modify (us := us) M.inv a.den a.res a.kids ?_ ?_ ?_
        · intro b _ hb
          have : b ≠ u := by rintro rfl; exact hb (.refl _)
          simp [upd_apply, this]
        · intro b _ _; rw [hval]
        · rw [hval]
          simp only [upd_self]
          refine DenL.append (d1.congr ?_) (d2.congr ?_)
          · intro c hc b hb
            have := hsub c (by rw [hK]; simp [hc]) b hb
            simp [upd_apply, this]
          · intro c hc b hb
            have := hsub c (by rw [hK]; simp [hc]) b hb
            simp [upd_apply, this]
      · have hA := A.vars z
        cases hz : m.env z with
        | none =>
          rw [hz] at hA
          simpa [Store.bind, Store.setKids, Store.set, hzx, hzf, A.fresh] using hA
        | some hd' =>
          rw [hz] at hA
          obtain ⟨w, e, hw⟩ := hA
          refine ⟨w, by simpa [Store.bind, Store.setKids, Store.set, hzx, hzf, A.fresh] using e, ?_⟩
          refine hden_frame hF M.inv (M.hnd z hd' hz) hw ?_
          rintro b hb rfl
          exact a.other M hz hzx hb
  · show S.dropped = h'.log
    rw [same.log]; exact A.log

end
end Trees
