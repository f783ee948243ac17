import Verif.Proof.ReenterPend
/-
Dropping a value while destructors use the crate.
-/
namespace Trees
set_option linter.unusedSimpArgs false
set_option linter.unusedVariables false
variable {α β γ : Type}

section
variable {m : Machine α} {P : List Handle} {V : List (Val α)}

theorem Pend.pop_cons {hd : Handle} {v : Val α} {t : RTree α} {ts : List (RTree α)} (p : Pend m (hd :: P) (v :: V)) (hit : hd.isIter = false)
    (hv : v.kids = t :: ts) : ∃ c h', popFront hd.addr m.heap = .ok (some c) h' ∧ h'.log = m.heap.log ∧
      Pend { m with heap := h' } (.tree c :: hd :: P) (.tree t :: v.setKids ts :: V) ∧ ({ m with heap := h' } : Machine α).store = m.store := by
  obtain ⟨K, M, ho, hden⟩ := p.top
  have hiv : v.isIter = false := by rw [← hden.isIter]; exact hit
  have hk := hden.kids
  rw [hv] at hk
  obtain ⟨c, cs, hK⟩ : ∃ c cs, K hd.addr = c :: cs := by
    cases h : K hd.addr with
    | nil => rw [h] at hk; simp at hk
    | cons c cs => exact ⟨c, cs, rfl⟩
  obtain ⟨h', e, -, -, -⟩ := popFront_ok (h := m.heap) M.inv hK
  have hsim := step_refines M M.abs_store (.popFront 0 [])
  rw [p.store] at hsim
  have h0 : (m.lift (hd :: P)).env 0 = some hd := rfl
  have s0 : (m.store.lift (v :: V)).vars 0 = some v := rfl
  have e1 : step (m.lift (hd :: P)) (.popFront 0 []) = (m.lift (hd :: P)).retVar h' (m.lift (hd :: P)).env (.tree c) := by
    simp only [step, Machine.onKids, h0, hit, Bool.false_eq_true, if_false, Machine.run, locate, Trees.M.pure_apply,
      show (m.lift (hd :: P)).heap = m.heap from rfl, e, Machine.retPop]
  have e2 : specStep (m.store.lift (v :: V)) (.popFront 0 []) =
      .ok (((m.store.lift (v :: V)).set 0 (some (v.setKids ts))).bind (.tree t)) (.var (m.store.lift (v :: V)).fresh) := by
    simp only [specStep, Store.onKids, s0, hiv, Bool.false_eq_true, if_false, kidsAt, hv, Store.setKids, modKids]
  rw [e1, e2] at hsim
  simp only [Machine.retVar, Sim] at hsim
  obtain ⟨-, K', M', A'⟩ := hsim
  have hst := A'.store_eq M'
  have hlog : h'.log = m.heap.log := congrArg Store.dropped hst
  have hvw := fun x => congrFun (congrArg Store.vars hst) x
  have hl := p.len
  simp only [List.length_cons, Nat.add_right_cancel_iff] at hl
  have hfe : (m.store.lift (v :: V)).fresh = (m.lift (hd :: P)).fresh := by
    show m.fresh + (V.length + 1) = m.fresh + (P.length + 1)
    rw [hl]
  have hval : ∀ x, (upd (m.lift (hd :: P)).env (m.lift (hd :: P)).fresh (some (.tree c)) x).bind (hread h') =
      upd (upd (m.store.lift (v :: V)).vars 0 (some (v.setKids ts))) (m.lift (hd :: P)).fresh (some (.tree t)) x := by
    intro x
    have := hvw x
    rw [Store.bind_eq, Store.set_eq] at this
    dsimp only at this
    rw [hfe] at this
    rw [← this]
    show _ = Machine.view _ _
    rw [view_hread]
  have hfr : (m.lift (hd :: P)).fresh = m.fresh + P.length + 1 := rfl
  have henv : ∀ z, (m.lift (hd :: P)).env (z + 1) = liftE P m.env z := fun z => liftE_succ z
  have hlt : ∀ z hd', (m.lift (hd :: P)).env z = some hd' → z ≠ (m.lift (hd :: P)).fresh := by
    rintro z hd' h rfl
    rw [M.fr _ (Nat.le_refl _)] at h; cases h
  refine ⟨c, h', e, hlog, ?_⟩
  have hpo := pend_of (m := { m with heap := h' }) (P := .tree c :: hd :: P) (V := .tree t :: v.setKids ts :: V) (S := m.store)
    ⟨K', ?_⟩ ?_ (by simp [hl])
  · exact ⟨hpo.2, hpo.1⟩
  · refine M'.reenv (f := fun z => if z = 0 then (m.lift (hd :: P)).fresh else z - 1) (g := fun z => if z = (m.lift (hd :: P)).fresh then 0 else z + 1) ?_ ?_ ?_ ?_
    · intro z hd' hz
      cases z with
      | zero =>
        cases hz
        refine ⟨.tree c, ?_, rfl, id⟩
        show upd _ _ _ _ = _
        simp [upd]
      | succ z =>
        have hz' : (m.lift (hd :: P)).env z = some hd' := by
          rw [← hz]; exact (liftE_succ (P := hd :: P) z).symm
        refine ⟨hd', ?_, rfl, id⟩
        show upd _ _ _ z = _
        rw [upd_of_ne _ _ (hlt z _ hz')]
        exact hz'
    · intro z y hz hy h1 h2 h3
      have hne : ∀ z hd', liftE (.tree c :: hd :: P) m.env (z + 1) = some hd' → z ≠ (m.lift (hd :: P)).fresh := by
        intro z hd' h
        rw [liftE_succ] at h
        exact hlt z hd' h
      cases z with
      | zero =>
        cases y with
        | zero => rfl
        | succ y => exact absurd h3.symm (hne y _ h2)
      | succ z =>
        cases y with
        | zero => exact absurd h3 (hne z _ h1)
        | succ y => exact congrArg (· + 1) h3
    · intro y hd' hy
      have hy' : upd (m.lift (hd :: P)).env (m.lift (hd :: P)).fresh (some (.tree c)) y = some hd' := hy
      by_cases hyf : y = (m.lift (hd :: P)).fresh
      · refine ⟨.tree c, ?_, ?_⟩
        · show liftE _ _ (if y = (m.lift (hd :: P)).fresh then 0 else y + 1) = _
          rw [if_pos hyf]; rfl
        · rw [hyf] at hy'; simp only [upd, if_true] at hy'; cases hy'; rfl
      · rw [upd_of_ne _ _ hyf] at hy'
        refine ⟨hd', ?_, rfl⟩
        show liftE _ _ (if y = (m.lift (hd :: P)).fresh then 0 else y + 1) = _
        rw [if_neg hyf, liftE_succ]; exact hy'
    · exact liftE_none (n := m.fresh) p.fr
  · simp only [Machine.store, Store.lift, Store.mk.injEq]
    refine ⟨?_, ?_, hlog⟩
    · funext x
      rw [view_hread]
      show (liftE (.tree c :: hd :: P) m.env x).bind (hread h') = _
      cases x with
      | zero =>
        have := hval (m.lift (hd :: P)).fresh
        simp only [upd, if_true] at this
        exact this
      | succ x =>
        rw [liftE_succ, liftE_succ]
        have := hval x
        by_cases hx : x = (m.lift (hd :: P)).fresh
        · have h1 : liftE (hd :: P) m.env x = none := by rw [hx]; exact M.fr _ (Nat.le_refl _)
          rw [h1]
          have h2 := p.fr m.fresh (Nat.le_refl _)
          rw [hx, hfr, liftE_succ]
          rw [show (m.fresh + P.length) = m.fresh + V.length by rw [hl], liftE_add]
          show none = m.view m.fresh
          rw [view_hread, h2]; rfl
        · rw [upd_of_ne _ _ hx, upd_of_ne _ _ hx] at this
          refine this.trans ?_
          cases x with
          | zero => rfl
          | succ x =>
            rw [upd_of_ne _ _ (by intro h; cases h)]
            show liftE (v :: V) m.store.vars (x + 1) = liftE (v.setKids ts :: V) m.view (x + 1)
            rw [liftE_succ, liftE_succ]; rfl
    · show m.fresh + (P.length + 1 + 1) = m.fresh + (V.length + 1 + 1)
      rw [hl]

/-- The item at the top of a value. -/
def Val.own : Val α → List α
  | .tree t => [t.data]
  | _ => []

theorem Val.post_own (v : Val α) : v.post = RTree.postL v.kids ++ v.own := by
  cases v with
  | tree t => cases t; rfl
  | forest ts => simp [Val.post, Val.own, Val.kids]
  | iter ts => simp [Val.post, Val.own, Val.kids]

/-- `heap::drop_node` on a value without children. -/
theorem Pend.free {hd : Handle} {v : Val α} (p : Pend m (hd :: P) (v :: V)) (hit : hd.isIter = false) (hv : v.kids = []) :
    ∃ h', dropNode hd.addr m.heap = .ok () h' ∧ h'.log = m.heap.log ++ v.own ∧
      Pend { m with heap := h' } P V ∧ ({ m with heap := h' } : Machine α).store = m.store.drop v.own := by
  have hpn := p.pop_nil hv
  obtain ⟨K, M, ho, hden⟩ := p.top
  obtain ⟨h', e, -, -⟩ := dropNode_freed (h := m.heap) M.st ho.used
  have hsim := step_refines M M.abs_store (.drop 0)
  rw [p.store] at hsim
  have h0 : (m.lift (hd :: P)).env 0 = some hd := rfl
  have s0 : (m.store.lift (v :: V)).vars 0 = some v := rfl
  have hdr : dropRoot hd.addr m.heap = .ok () h' := by
    simp only [dropRoot, Trees.M.fuelled, dropLoop, Trees.M.bind_apply, hpn, Res.bind_ok, e]
  have e1 : step (m.lift (hd :: P)) (.drop 0) = (m.lift (hd :: P)).ret h' ((m.lift (hd :: P)).setEnv 0 none) .unit := by
    cases hd with
    | tree r => simp only [step, h0, Machine.run, show (m.lift (.tree r :: P)).heap = m.heap from rfl, hdr]
    | forest r => simp only [step, h0, Machine.run, show (m.lift (.forest r :: P)).heap = m.heap from rfl, hdr]
    | iter r => cases hit
  have e2 : specStep (m.store.lift (v :: V)) (.drop 0) = .ok (((m.store.lift (v :: V)).set 0 none).drop v.own) .unit := by
    simp only [specStep, s0]
    rw [v.post_own, hv]; rfl
  rw [e1, e2] at hsim
  simp only [Machine.ret, Sim] at hsim
  obtain ⟨-, K', M', A'⟩ := hsim
  have hst := A'.store_eq M'
  have hlog : h'.log = m.heap.log ++ v.own := congrArg Store.dropped hst
  have hvw := fun x => congrFun (congrArg Store.vars hst) x
  have hl := p.len
  simp only [List.length_cons, Nat.add_right_cancel_iff] at hl
  have hpo := pend_of (m := { m with heap := h' }) (P := P) (V := V) (S := m.store.drop v.own) ⟨K', ?_⟩ ?_ hl
  · exact ⟨h', e, hlog, hpo.2, hpo.1⟩
  · refine M'.reenv (f := fun z => z + 1) (g := fun z => z - 1) ?_ ?_ ?_ ?_
    · intro z hd' hz
      refine ⟨hd', ?_, rfl, id⟩
      show upd (liftE (hd :: P) m.env) 0 none (z + 1) = _
      rw [upd_of_ne _ _ (by intro h; cases h), liftE_succ]; exact hz
    · intro z y hz hy h1 h2 h3; exact Nat.succ.inj h3
    · intro y hd' hy
      have hy' : upd (liftE (hd :: P) m.env) 0 none y = some hd' := hy
      cases y with
      | zero => simp [upd] at hy'
      | succ y =>
        rw [upd_of_ne _ _ (by intro h; cases h), liftE_succ] at hy'
        exact ⟨hd', hy', rfl⟩
    · exact liftE_none (n := m.fresh) p.fr
  · simp only [Machine.store, Store.lift, Store.mk.injEq]
    refine ⟨?_, ?_, hlog⟩
    · funext x
      have := hvw (x + 1)
      have e3 : (Machine.store ⟨h', (m.lift (hd :: P)).setEnv 0 none, (m.lift (hd :: P)).fresh⟩).vars (x + 1) =
          (liftE P m.env x).bind (hread h') := by
        show Machine.view _ _ = _
        rw [view_hread]
        show (upd (liftE (hd :: P) m.env) 0 none (x + 1)).bind _ = _
        rw [upd_of_ne _ _ (by intro h; cases h), liftE_succ]
      rw [e3] at this
      rw [view_hread]
      refine this.trans ?_
      show upd (liftE (v :: V) m.store.vars) 0 none (x + 1) = _
      rw [upd_of_ne _ _ (by intro h; cases h), liftE_succ]
      rfl
    · show m.fresh + P.length = m.fresh + V.length
      rw [hl]

end
end Trees
