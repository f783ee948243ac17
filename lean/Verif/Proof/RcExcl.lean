import Verif.Proof.RcInv
/-
Calls on exclusive values in programs with shared nodes.
-/
namespace Trees
set_option linter.unusedSimpArgs false
set_option linter.unusedVariables false
variable {α β γ : Type}
open Classical

/-- The state of an outcome. -/
def Outcome.stateOr {σ : Type} (s : σ) : Outcome σ α → σ
  | .ok s' _ => s'
  | .panic s' => s'
  | _ => s

theorem spec_fresh (S : Store α) (op : Op α) : S.fresh ≤ ((specStep S op).stateOr S).fresh := by
  cases op <;>
    simp only [specStep, Store.takeTree, Store.takeForest, Store.onKids, Store.onNode] <;>
    (repeat' split) <;>
    simp_all [Outcome.stateOr, Store.bind, Store.set, Store.drop, Store.setKids]

section
variable {m : RMachine α} {G : Heap α} {K : Addr → List Addr} {T : Var → Option Addr}

/-- The state after an exclusive call. -/
theorem RInv.excl_core (I : RInv m G K T) {X' G' : Heap α} {env' : Var → Option Handle} {fr' : Nat} {KX K' : Addr → List Addr} {S : Store α}
    (hX : MInv ⟨X', env', fr'⟩ KX) (hA : Abs ⟨X', env', fr'⟩ KX S) (hG : HRel (cutCtx (shared m.env G K) G) X' G') (hM : Mono G G')
    (hg : MInv ⟨G', overlay (firstH G T) env', fr'⟩ K')
    (hs : ∀ x r, m.refs x = some r → env' x = none) (hf : m.fresh ≤ fr') :
    RInv ⟨bumpE (extra G m.fresh T) G', env', m.refs, fr'⟩ G' K' T ∧ Keep (shared m.env G K) G K G' K' ∧
      (⟨bumpE (extra G m.fresh T) G', env', fr'⟩ : Machine α).store = S := by
  have hP : ∀ a, shared m.env G K a = true → G.Used a := fun a h => (shared_iff.mp h).1
  have hk : Keep (shared m.env G K) G K G' K' := by
    have hu : ∀ a, shared m.env G K a = true → G'.Used a := by
      intro a ha
      have h1 := hG.liveP a ha
      have h2 := hG.data a
      simp only [cutCtx, ha, pick_true] at h1 h2
      exact ⟨h1.trans (hP a ha).1, by rw [h2]; exact (hP a ha).2⟩
    refine ⟨hu, ?_, ?_, ?_, hM⟩
    · intro a ha
      refine kids_unique I.inv hg.inv (hP a ha) (hu a ha) ?_ ?_
      · rw [show G'.head a = _ from hG.head a]; simp [cutCtx, ha]
      · intro c hc
        have hcP : shared m.env G K c = true := by rw [I.whole a c hc]; exact ha
        exact ⟨by rw [hG.next]; simp [cutCtx, hcP], by rw [hG.prev]; simp [cutCtx, hcP]⟩
    · intro a ha; rw [hG.data]; simp [cutCtx, ha]
    · intro a ha; rw [hG.up]; simp [cutCtx, ha]
  have hee : extra G' fr' T = extra G m.fresh T := by
    funext a
    simp only [extra, nh_ext hf (fun k => I.tnone)]
    by_cases hn : nh m.fresh T a = 0
    · simp [hn]
    · obtain ⟨k, -, h⟩ := nh_pos.mp hn
      rw [hk.up a (I.tshared h)]
  have henv : ∀ x hd, env' x = some hd → overlay (firstH G T) env' x = some hd := fun x hd h => overlay_some h
  -- the nodes of exclusive values are not shared nodes
  have hne : ∀ a, Excl env' K' a → shared m.env G K a = false := by
    rintro a ⟨x, hd, h1, h2⟩
    have hr := hG.notP (hX.hnd x hd h1).used.1
    have hr0 : shared m.env G K hd.addr = false := hr
    have hI' : Inv G' K' := hg.inv
    generalize hd.addr = r at h2 hr0
    clear h1 hr
    induction h2 with
    | refl => exact hr0
    | step hm _ ih =>
      rename_i b c x _
      apply ih
      cases hs : shared m.env G K c with
      | false => rfl
      | true =>
        have h3 : G'.up c = G.up c := hk.up c hs
        have h4 := hI'.up_of_mem hm
        rw [h3] at h4
        have h5 : c ∈ K b := I.inv.mem_iff.mpr ⟨hP c hs, h4⟩
        rw [I.whole b c h5, hr0] at hs; simp at hs
  have hT : ∀ k a, T k = some a → ¬ Excl env' K' a := fun k a h hx => by
    have h1 := I.tshared h
    rw [hne a hx] at h1; simp at h1
  have R : RInv ⟨bumpE (extra G m.fresh T) G', env', m.refs, fr'⟩ G' K' T := by
    refine ⟨?_, hg.inv, hg.st, hg.kv, fun x hd h => hg.hnd x hd (henv x hd h),
      fun x y hx hy h h' e => hg.dist x y hx hy (henv x hx h) (henv y hy h') e, fun x hx => ⟨hX.fr x hx, (I.fr x (Nat.le_trans hf hx)).2⟩, hs, ?_, ?_, ?_, I.guards, ?_⟩
    · show bumpE (extra G m.fresh T) G' = bumpE (extra G' fr' T) G'
      rw [hee]
    · intro k r hr
      obtain ⟨a, h1, h2⟩ := I.rcs k r hr
      exact ⟨a, h1, is_rel I.st hG hP h2 (I.tshared h1)⟩
    · intro k a h
      exact ⟨(I.tgt k a h).1, hk.used a (I.tshared h), hT k a h⟩
    · intro a ha hu
      obtain ⟨x, hd, h1, h2⟩ := hg.all a ha hu
      rcases overlay_cases h1 with h | ⟨-, h⟩
      · exact .inl ⟨x, hd, h, h2⟩
      · obtain ⟨b, g1, g2, rfl, -⟩ := firstH_some h
        exact .inr ⟨x, by rw [g1, ← h2]; rfl⟩
    · intro k r hr
      obtain ⟨a, rfl, h1, h2⟩ := I.wk k r hr
      refine ⟨a, rfl, Nat.lt_of_lt_of_le h1 hM.nextAddr, ?_⟩
      intro hl
      obtain ⟨⟨d, h3⟩, h4⟩ := h2 (hM.live a h1 hl)
      have hs : shared m.env G K a = true := shared_iff.mpr ⟨⟨hM.live a h1 hl, by rw [h3]; rfl⟩, h4⟩
      refine ⟨⟨d, by rw [hk.data a hs]; exact h3⟩, fun hx => ?_⟩
      rw [hne a hx] at hs; simp at hs
  refine ⟨R, hk, ?_⟩
  cases S with
  | mk vars fresh dropped =>
  have hfr := hA.fresh
  have hlog := hA.log
  simp only at hfr hlog
  simp only [Machine.store, Store.mk.injEq]
  refine ⟨?_, hfr.symm, ?_⟩
  · funext x
    have hx := hA.vars x
    cases he : env' x with
    | none =>
      simp only [he] at hx
      simp [Machine.view, he, hx]
    | some hd =>
      simp only [he] at hx
      obtain ⟨v, e1, e2⟩ := hx
      have h1 := e2.read hX.inv (hX.hnd x hd he)
      obtain ⟨H', h2⟩ := rob_readHandle hG (fun a _ h => by simp [cutCtx] at h) (hX.hnd x hd he).used h1
      obtain ⟨w, h3, h4⟩ := R.hden he
      have h5 := h3.read hg.inv (hg.hnd x hd (henv x hd he))
      have h6 : w = v := by
        have : readHandle hd G' = .ok w G' := h5
        rw [this] at h2; simp at h2; exact h2.1
      subst h6
      rw [e1]; exact h4
  · show G'.log = dropped
    rw [hG.log, hlog]

/-- The outcome of an exclusive call in a program with shared nodes. -/
def ExOut (m : RMachine α) (G : Heap α) (K : Addr → List Addr) (T : Var → Option Addr) : Outcome (Machine α) α → Outcome (Store α) α → Prop
  | .ok m' o, .ok S o' => o = o' ∧ m'.store = S ∧
      ∃ G' K', m'.heap = bumpE (extra G m.fresh T) G' ∧ RInv ⟨m'.heap, m'.env, m.refs, m'.fresh⟩ G' K' T ∧ Keep (shared m.env G K) G K G' K' ∧ m.fresh ≤ m'.fresh
  | .panic m', .panic S => m'.store = S ∧
      ∃ G' K', m'.heap = bumpE (extra G m.fresh T) G' ∧ RInv ⟨m'.heap, m'.env, m.refs, m'.fresh⟩ G' K' T ∧ Keep (shared m.env G K) G K G' K' ∧ m.fresh ≤ m'.fresh
  | .rejected, .rejected => True
  | _, _ => False

theorem keeps_of {e : Addr → Nat} {P : Addr → Bool} {G' : Heap α} {K' : Addr → List Addr} (hk : Keep P G K G' K') (h : ∀ x, e x ≠ 0 → P x = true) : Keeps e G G' :=
  ⟨fun x hx => hk.used x (h x hx), fun x hx => by rw [hk.data x (h x hx)]⟩

/-- Every call on exclusive values does what it does without shared nodes around, and leaves them alone. -/
theorem RInv.excl_step (I : RInv m G K T) (op : Op α) : ExOut m G K T (step m.excl op) (specStep m.excl.store op) := by
  have hP : ∀ a, shared m.env G K a = true → G.Used a := fun a h => (shared_iff.mp h).1
  have hm : m.excl = ⟨bumpE (extra G m.fresh T) G, m.env, m.fresh⟩ := by simp only [RMachine.excl, I.heap]
  have hX := I.cutM
  have sim := step_refines hX hX.abs_store op
  rw [I.cut_store] at sim
  have rG := step_rob (cut_rel I.st hP) (fun a _ h => by simp [cutCtx] at h) (env := m.env) (fr := m.fresh) op
  have eG := step_ext (X := G) (g := firstH G T) (env := m.env) (fr := m.fresh) (fun x h hx => I.gnone hx) (fun x h hx => I.glt hx) op
  have eS := step_ext (X := G) (g := fun x => if m.refs x = none then none else some (.tree 0)) (env := m.env) (fr := m.fresh)
    (fun x h hx => by
      cases hr : m.refs x with
      | none => simp [hr] at hx
      | some r => exact I.sep x r hr)
    (fun x h hx => by
      by_contra hlt
      simp [(I.fr x (Nat.le_of_not_lt hlt)).2] at hx) op
  have simG := step_refines I.ghost I.ghost.abs_store op
  have hEl : ∀ x, extra G m.fresh T x ≠ 0 → x < G.nextAddr := fun x hx => I.st.liveB x (I.eUsed hx).1
  have hEs : ∀ x, extra G m.fresh T x ≠ 0 → shared m.env G K x = true := fun x hx => by
    obtain ⟨k, hk⟩ := I.hE hx; exact I.tshared hk
  have rH := step_rob (hrel_bump (e := extra G m.fresh T) I.st hEl) (fun a _ h => (I.eUsed h).1) (env := m.env) (fr := m.fresh) op
  rw [← hm] at rH
  have hfr := spec_fresh m.excl.store op
  cases hr : step (⟨cut (shared m.env G K) G, m.env, m.fresh⟩ : Machine α) op with
  | bad =>
    rw [hr] at sim
    cases h : specStep m.excl.store op <;> rw [h] at sim <;> exact sim.elim
  | rejected =>
    rw [hr] at sim rG
    cases h : specStep m.excl.store op <;> rw [h] at sim <;> first | exact sim.elim | skip
    have h2 : step (⟨G, m.env, m.fresh⟩ : Machine α) op = .rejected := rG
    rw [h2] at rH
    have h3 : step m.excl op = .rejected := rH
    rw [h3]; trivial
  | ok mX o =>
    rw [hr] at sim rG
    cases h : specStep m.excl.store op <;> rw [h] at sim <;> first | exact sim.elim | skip
    rename_i S o'
    rw [h] at hfr
    obtain ⟨rfl, KX, M', A'⟩ := sim
    obtain ⟨G', h2, h3⟩ := rG.2 (fun a _ h => by simp [cutCtx] at h)
    rw [h2] at eG rH eS
    rw [eG.1] at simG
    cases hsg : specStep (⟨G, overlay (firstH G T) m.env, m.fresh⟩ : Machine α).store op <;> rw [hsg] at simG <;> first | exact simG.elim | skip
    obtain ⟨-, K', Mg, -⟩ := simG
    have hsep : ∀ x r, m.refs x = some r → mX.env x = none := fun x r hx => eS.2 x (.tree 0) (by simp [hx])
    have hle : m.fresh ≤ mX.fresh := by
      have : m.fresh ≤ S.fresh := hfr
      rw [A'.fresh] at this; exact this
    obtain ⟨R, hk, hst⟩ := I.excl_core (X' := mX.heap) (G' := G') M' A' h3 rH.1 Mg hsep hle
    obtain ⟨H', h4, h5⟩ := rH.2 (fun a _ ha => by
      have := (hk.used a (hEs a ha)).1; exact this)
    have h6 := hrel_unbump I.st Mg.st (fun x hx => I.eUsed hx) (keeps_of hk hEs) h5
    rw [h4, h6]
    exact ⟨rfl, hst, G', K', rfl, R, hk, hle⟩
  | panic mX =>
    rw [hr] at sim rG
    cases h : specStep m.excl.store op <;> rw [h] at sim <;> first | exact sim.elim | skip
    rename_i S
    rw [h] at hfr
    obtain ⟨KX, M', A'⟩ := sim
    obtain ⟨G', h2, h3⟩ := rG.2 (fun a _ h => by simp [cutCtx] at h)
    rw [h2] at eG rH eS
    rw [eG.1] at simG
    cases hsg : specStep (⟨G, overlay (firstH G T) m.env, m.fresh⟩ : Machine α).store op <;> rw [hsg] at simG <;> first | exact simG.elim | skip
    obtain ⟨K', Mg, -⟩ := simG
    have hsep : ∀ x r, m.refs x = some r → mX.env x = none := fun x r hx => eS.2 x (.tree 0) (by simp [hx])
    have hle : m.fresh ≤ mX.fresh := by
      have : m.fresh ≤ S.fresh := hfr
      rw [A'.fresh] at this; exact this
    obtain ⟨R, hk, hst⟩ := I.excl_core (X' := mX.heap) (G' := G') M' A' h3 rH.1 Mg hsep hle
    obtain ⟨H', h4, h5⟩ := rH.2 (fun a _ ha => by
      have := (hk.used a (hEs a ha)).1; exact this)
    have h6 := hrel_unbump I.st Mg.st (fun x hx => I.eUsed hx) (keeps_of hk hEs) h5
    rw [h4, h6]
    exact ⟨hst, G', K', rfl, R, hk, hle⟩

end
end Trees
