import Verif.Proof.RefSource
/-
Owning breadth-first iteration: the queue of iterators is described by variables of an imagined
machine, so every step is one of the calls already understood.
-/
namespace Trees
set_option linter.unusedSimpArgs false
variable {α : Type}
open RTree

section
variable {env : Var → Option Handle} {fr : Nat} {S : Store α} {h : Heap α} {K : Addr → List Addr}

theorem own_pop_nil (H : MOK env fr S h K) {x : Var} {f : Addr} (hx : env x = some (.iter f)) (hv : S.vars x = some (.iter [])) :
    popFront f h = .ok none h := by
  obtain ⟨MI, A⟩ := H
  have hA := A.vars x
  simp only [hx] at hA
  obtain ⟨v, e, hd⟩ := hA
  rw [hv] at e
  obtain rfl := Option.some.inj e
  have hu := (MI.hnd x _ hx).used
  have hK : K f = [] := by simpa [HDen] using hd
  exact popFront_nil MI.inv hu hK

theorem own_pop_cons (H : MOK env fr S h K) {x : Var} {f : Addr} {t : RTree α} {us : List (RTree α)} (hx : env x = some (.iter f)) (hv : S.vars x = some (.iter (t :: us))) :
    ∃ c h' K', popFront f h = .ok (some c) h' ∧
      MOK (upd env fr (some (.tree c))) (fr + 1) ((S.set x (some (.iter us))).bind (.tree t)) h' K' := by
  obtain ⟨MI, A⟩ := H
  have hA := A.vars x
  simp only [hx] at hA
  obtain ⟨v, e, hd⟩ := hA
  rw [hv] at e
  obtain rfl := Option.some.inj e
  have a : At ⟨h, env, fr⟩ K S x [] (.iter f) f (.iter (t :: us)) (t :: us) := ⟨hx, hv, hd, rfl, rfl, hd⟩
  have hsim := sim_popFront MI A a
  simp only [Machine.run, popFrontSpec] at hsim
  cases e : popFront f h with
  | err e' h' => rw [e] at hsim; cases e' <;> simp only [Sim] at hsim
  | ok o h' =>
    rw [e] at hsim
    cases o with
    | none => simp [Machine.retPop, Machine.ret, Sim] at hsim
    | some c =>
      obtain ⟨-, K', MI', A'⟩ := hsim
      exact ⟨c, h', K', rfl, MI', A'⟩

/-- Giving back a childless tree through `into_data`. -/
theorem own_intoData (H : MOK env fr S h K) {y : Var} {c : Addr} {d : α} (hy : env y = some (.tree c))
    (hv : S.vars y = some (.tree (.node d []))) :
    ∃ h' K', intoData c h = .ok d h' ∧ MOK (upd env y none) fr (S.set y none) h' K' := by
  obtain ⟨MI, A⟩ := H
  have hA := A.vars y
  simp only [hy] at hA
  obtain ⟨v, e, hd⟩ := hA
  rw [hv] at e
  obtain rfl := Option.some.inj e
  simp only [HDen, Den_node, DenL_nil] at hd
  have ho := MI.hnd y _ hy
  have hK : K c = [] := by simpa using hd.2
  obtain ⟨h', e', f1, f2⟩ := intoData_freed MI.st (a := c) ho.used hd.1
  have D : Dropped h K c [] h' K (fun _ => 0) := by
    refine ⟨f1.inv MI.inv ho.root hK, f2, ?_⟩
    have := f1.shrink K
    have hiff : ∀ x, Reach K c x ↔ x = c := by
      intro x; rw [reach_iff, hK]; simp
    have e2 : Reach K c = (· = c) := by funext x; exact propext (hiff x)
    rw [e2]; simpa using this
  have := minv_drop MI A hy D
  refine ⟨h', K, e', this.1, ?_⟩
  simpa [Store.drop, Store.set] using this.2

/-- A forest becomes its iterator. -/
theorem own_retag (H : MOK env fr S h K) {y : Var} {c : Addr} {ts : List (RTree α)} (hy : env y = some (.forest c))
    (hv : S.vars y = some (.forest ts)) : MOK (upd env y (some (.iter c))) fr (S.set y (some (.iter ts))) h K := by
  obtain ⟨MI, A⟩ := H
  have hg : ∀ z hz, upd env y (some (.iter c)) z = some hz → ∃ hz', env z = some hz' ∧ hz'.addr = hz.addr ∧
      (hz' = hz ∨ (hz' = .forest c ∧ hz = .iter c)) := by
    intro z hz h1
    simp only [upd_apply] at h1
    split at h1
    · rename_i e; subst e
      exact ⟨_, hy, by rw [← Option.some.inj h1]; rfl, .inr ⟨rfl, (Option.some.inj h1).symm⟩⟩
    · exact ⟨hz, h1, rfl, .inl rfl⟩
  refine ⟨⟨MI.inv, MI.st, MI.kv, ?_, ?_, ?_, ?_⟩, ⟨?_, A.fresh, A.log⟩⟩
  · intro z hz h1
    obtain ⟨hz', g1, g2, g3⟩ := hg z hz h1
    have := MI.hnd z hz' g1
    rcases g3 with rfl | ⟨rfl, rfl⟩
    · exact this
    · exact ⟨this.used, this.root, this.kind⟩
  · intro z w hz hw h1 h2 e
    obtain ⟨hz', g1, g2, g3⟩ := hg z hz h1
    obtain ⟨hw', k1, k2, k3⟩ := hg w hw h2
    exact MI.dist z w hz' hw' g1 k1 (by rw [g2, k2, e])
  · intro b hb hb2
    obtain ⟨z, hz, h3, h4⟩ := MI.all b hb hb2
    by_cases hzy : z = y
    · subst hzy
      rw [show env z = some hz from h3] at hy
      obtain rfl := Option.some.inj hy
      exact ⟨z, .iter c, by simp, h4⟩
    · exact ⟨z, hz, by simpa [upd_apply, hzy] using h3, h4⟩
  · intro z hz
    show upd env y (some (.iter c)) z = none
    have h1 := MI.fr z hz
    simp only [upd_apply]
    split
    · rename_i e; subst e; rw [show env z = none from h1] at hy; simp at hy
    · exact h1
  · intro z
    show match upd env y (some (.iter c)) z with
      | none => _
      | some hd => _
    by_cases hzy : z = y
    · subst hzy
      simp only [upd_self]
      have hA := A.vars z
      simp only [hy] at hA
      obtain ⟨v, e, hd⟩ := hA
      rw [hv] at e
      obtain rfl := Option.some.inj e
      exact ⟨.iter ts, by simp [Store.set], hd⟩
    · simp only [upd_apply, hzy, if_false]
      have hA := A.vars z
      cases hz : env z with
      | none => simp only [hz] at hA; simpa [Store.set, hzy] using hA
      | some hd' =>
        simp only [hz] at hA
        obtain ⟨w, e, hw⟩ := hA
        exact ⟨w, by simpa [Store.set, hzy] using e, hw⟩

theorem own_degree (H : MOK env fr S h K) {y : Var} {c : Addr} {ts : List (RTree α)} (hy : env y = some (.iter c))
    (hv : S.vars y = some (.iter ts)) : degree c h = .ok ts.length h := by
  obtain ⟨MI, A⟩ := H
  have hA := A.vars y
  simp only [hy] at hA
  obtain ⟨v, e, hd⟩ := hA
  rw [hv] at e
  obtain rfl := Option.some.inj e
  simp only [HDen] at hd
  have h1 := degree_len MI.inv (MI.hnd y _ hy).used
  have := hd.length
  rw [← this]
  exact h1

/-- `Tree::split`: the root is taken apart into its data and an iterator over its children. -/
theorem own_split (H : MOK env fr S h K) {y : Var} {c : Addr} {t : RTree α} (hy : env y = some (.tree c))
    (hv : S.vars y = some (.tree t)) :
    ∃ h' K', ownSrc.split c h = .ok (t.data, c, countL t.kids) h' ∧ degree c h' = .ok t.kids.length h' ∧
      MOK (upd (upd env y none) fr (some (.iter c))) (fr + 1) ((S.set y none).bind (.iter t.kids)) h' K' := by
  obtain ⟨MI, A⟩ := H
  have hA := A.vars y
  simp only [hy] at hA
  obtain ⟨v, e, hd⟩ := hA
  rw [hv] at e
  obtain rfl := Option.some.inj e
  have ho := MI.hnd y _ hy
  have hyf : y ≠ fr := MI.fresh_ne (x := y) hy
  cases t with
  | node d ks =>
    have hd' := hd
    simp only [HDen, Den_node] at hd'
    have hsz := MI.inv.sz_den ho.used hd'.2
    simp only [Handle.addr] at hsz
    obtain ⟨h1, e1, hI, hS, hU, hval, hup, hlog, hK⟩ := abandon_ok MI.inv MI.st ho.used hd'.1
    obtain ⟨-, K1, MI1, A1⟩ := sim_abandon MI A hy hd rfl hI hS hU hval hup hlog hK
    simp only at MI1 A1
    have g1 : upd (Machine.setEnv ⟨h, env, fr⟩ y (some (.tree h.nextAddr))) fr (some (.forest c)) y = some (.tree h.nextAddr) := by
      simp [Machine.setEnv, upd_apply, hyf]
    have g2 : ((S.set y (some (.tree (.node d [])))).bind (.forest ks)).vars y = some (.tree (.node d [])) := by
      simp [Store.bind, Store.set, A.fresh, hyf]
    obtain ⟨h2, K2, e2, H2⟩ := own_intoData (S := (S.set y (some (.tree (.node d [])))).bind (.forest ks)) ⟨MI1, A1⟩ g1 g2
    have H3 := own_retag H2 (y := fr) (c := c) (ts := ks) (by simp [upd_apply, Ne.symm hyf])
      (by simp [Store.set, Store.bind, A.fresh, Ne.symm hyf])
    have H4 : MOK (upd (upd env y none) fr (some (.iter c))) (fr + 1) ((S.set y none).bind (.iter ks)) h2 K2 := by
      convert H3 using 1
      · funext z
        simp only [upd_apply, Machine.setEnv]
        by_cases h1 : z = fr <;> by_cases h2 : z = y <;> simp [h1, h2]
      · simp only [Store.bind, Store.set, A.fresh, Store.mk.injEq, and_true]
        funext z
        by_cases h1 : z = fr <;> by_cases h2 : z = y <;> simp [h1, h2]
    refine ⟨h2, K2, ?_, own_degree H4 (y := fr) (by simp) (by simp [Store.bind, Store.set, A.fresh]), H4⟩
    simp only [Handle.addr] at e1
    simp only [ownSrc, M.bind_apply, getSize_ok ho.used.1, Res.bind_ok, Handle.addr, hsz, e1, e2, M.pure_apply]
    have hl : h.live c = true := ho.used.1
    simp only [getSize_ok hl, Res.bind_ok, e1, e2, hsz]
    rfl

/-- Dropping an iterator. -/
theorem own_drop (H : MOK env fr S h K) {x : Var} {f : Addr} {ts : List (RTree α)} (hx : env x = some (.iter f))
    (hv : S.vars x = some (.iter ts)) :
    ∃ h' K', intoIterDrop f h = .ok () h' ∧ MOK (upd env x none) fr ((S.set x none).drop (postL ts)) h' K' := by
  obtain ⟨MI, A⟩ := H
  have hA := A.vars x
  simp only [hx] at hA
  obtain ⟨v, e, hd⟩ := hA
  rw [hv] at e
  obtain rfl := Option.some.inj e
  have ho := MI.hnd x _ hx
  obtain ⟨h', K', e', D⟩ := intoIterDrop_ok MI.inv MI.st ho.used ho.root ho.kind hd
  simp only [Handle.addr] at e'
  exact ⟨h', K', e', minv_drop MI A hx D⟩

end

/-- The queue `s` of an owning iteration: variables `xs` from `fr0` on hold its iterators, the variables below
are `env0`, `V0`, and the destructors run so far are `L`. -/
structure OwnQ (env0 : Var → Option Handle) (fr0 : Nat) (V0 : Var → Option (Val α)) (L : List α) (h : Heap α) (s : List Addr)
    (tss : List (List (RTree α))) (env : Var → Option Handle) (fr : Nat) (S : Store α) (K : Addr → List Addr) (xs : List Var) : Prop where
  ok : MOK env fr S h K
  log : S.dropped = L
  envQ : List.Forall₂ (fun x f => env x = some (.iter f)) xs s
  varQ : List.Forall₂ (fun x ts => S.vars x = some (.iter ts)) xs tss
  nodup : xs.Nodup
  ge : ∀ x ∈ xs, fr0 ≤ x
  lefr : fr0 ≤ fr
  low : ∀ z, z < fr0 → env z = env0 z ∧ S.vars z = V0 z
  high : ∀ z, fr0 ≤ z → z ∉ xs → env z = none ∧ S.vars z = none

def OwnI (env0 : Var → Option Handle) (fr0 : Nat) (V0 : Var → Option (Val α)) (L : List α) (h : Heap α) (s : List Addr)
    (tss : List (List (RTree α))) : Prop :=
  ∃ env fr S K xs, OwnQ env0 fr0 V0 L h s tss env fr S K xs

section
variable {env0 : Var → Option Handle} {fr0 : Nat} {V0 : Var → Option (Val α)} {L : List α}

theorem OwnI.drop {h : Heap α} {it : Addr} {rest : List Addr} {us : List (RTree α)} {tss : List (List (RTree α))}
    (H : OwnI env0 fr0 V0 L h (it :: rest) (us :: tss)) :
    ∃ h', intoIterDrop it h = .ok () h' ∧ OwnI env0 fr0 V0 (L ++ postL us) h' rest tss := by
  obtain ⟨env, fr, S, K, xs, Q⟩ := H
  have hq := Q.envQ
  have hw := Q.varQ
  cases hq with
  | @cons x f xs' s' h1 h2 =>
    cases hw with
    | cons h3 h4 =>
      obtain ⟨h', K', e, H'⟩ := own_drop Q.ok h1 h3
      have hnd := Q.nodup
      rw [List.nodup_cons] at hnd
      have hne : ∀ y ∈ xs', y ≠ x := fun y hy e => hnd.1 (e ▸ hy)
      refine ⟨h', e, upd env x none, fr, _, K', xs', H', ?_, ?_, ?_, hnd.2, fun y hy => Q.ge y (by simp [hy]), Q.lefr, ?_, ?_⟩
      · simp [Store.drop, Store.set, Q.log]
      · rw [List.forall₂_iff_get] at h2 ⊢
        refine ⟨h2.1, fun i hi hj => ?_⟩
        have := h2.2 i hi hj
        simp only [upd_apply, hne _ (List.get_mem _ _), if_false]; exact this
      · rw [List.forall₂_iff_get] at h4 ⊢
        refine ⟨h4.1, fun i hi hj => ?_⟩
        have := h4.2 i hi hj
        simp only [Store.drop, Store.set, hne _ (List.get_mem _ _), if_false]; exact this
      · intro z hz
        have hzx : z ≠ x := fun e => by
          have := Q.ge x (by simp)
          subst e
          exact absurd hz (Nat.not_lt.mpr this)
        have := Q.low z hz
        simp only [upd_apply, Store.drop, Store.set, hzx, if_false]; exact this
      · intro z hz hzn
        by_cases hzx : z = x
        · subst hzx; simp [Store.drop, Store.set]
        · have := Q.high z hz (by simp [hzx, hzn])
          simp only [upd_apply, Store.drop, Store.set, hzx, if_false]; exact this

theorem forall2_of_get {β γ : Type} {R R' : β → γ → Prop} {l : List β} {l' : List γ} (H : List.Forall₂ R l l')
    (hi : ∀ b ∈ l, ∀ c, R b c → R' b c) : List.Forall₂ R' l l' := by
  induction H with
  | nil => exact .nil
  | cons h1 _ ih => exact .cons (hi _ (by simp) _ h1) (ih (fun b hb => hi b (by simp [hb])))

theorem ownSpec : SrcSpec ownSrc (OwnI env0 fr0 V0 L) := by
  refine ⟨?_, ?_, ?_⟩
  · rintro h s tss ⟨env, fr, S, K, xs, Q⟩
    rw [← Q.envQ.length_eq, Q.varQ.length_eq]
  · rintro h it rest tss H
    obtain ⟨h', e, H'⟩ := H.drop
    obtain ⟨env, fr, S, K, xs, Q⟩ := H
    have hq := Q.envQ
    have hw := Q.varQ
    cases hq with
    | @cons x f xs' s' h1 h2 =>
      cases hw with
      | cons h3 h4 =>
        refine ⟨it, h, h', ?_, e, by simpa using H'⟩
        simp [ownSrc, own_pop_nil Q.ok h1 h3]
  · rintro h it rest t us tss ⟨env, fr, S, K, xs, Q⟩
    have hq := Q.envQ
    have hw := Q.varQ
    cases hq with
    | @cons x f xs' s' h1 h2 =>
      cases hw with
      | cons h3 h4 =>
        have hnd := Q.nodup
        rw [List.nodup_cons] at hnd
        have hSf : S.fresh = fr := Q.ok.2.fresh
        have hlt : ∀ y ∈ x :: xs', y < fr := by
          intro y hy
          refine Nat.lt_of_not_le fun hle => ?_
          have hn := Q.ok.1.fr y hle
          simp only at hn
          obtain ⟨i, hi, rfl⟩ := List.getElem_of_mem hy
          have := (List.forall₂_iff_get.mp Q.envQ).2 i hi (by rw [← Q.envQ.length_eq]; exact hi)
          simp only [List.get_eq_getElem] at this
          rw [hn] at this; simp at this
        obtain ⟨c, h5, K1, e1, H1⟩ := own_pop_cons Q.ok h1 h3
        have hx1 : x ≠ fr := Nat.ne_of_lt (hlt x (by simp))
        obtain ⟨h6, K2, e2, e3, H2⟩ := own_split H1 (y := fr) (c := c) (t := t) (by simp) (by simp [Store.bind, Store.set, hSf])
        have hne : ∀ y ∈ xs', y ≠ x := fun y hy e => hnd.1 (e ▸ hy)
        have hnf : ∀ y ∈ xs', y ≠ fr := fun y hy => Nat.ne_of_lt (hlt y (by simp [hy]))
        have hnf1 : ∀ y ∈ xs', y ≠ fr + 1 := fun y hy => Nat.ne_of_lt (Nat.lt_succ_of_lt (hlt y (by simp [hy])))
        have hx2 : x ≠ fr + 1 := Nat.ne_of_lt (Nat.lt_succ_of_lt (hlt x (by simp)))
        refine ⟨c, it, c, h5, h6, by simp [ownSrc, e1], e2, e3, _, _, _, K2, x :: xs' ++ [fr + 1], H2, ?_, ?_, ?_, ?_, ?_, ?_, ?_, ?_⟩
        · simp [Store.bind, Store.set, Q.log]
        · refine List.rel_append (.cons ?_ (forall2_of_get h2 ?_)) (.cons ?_ .nil)
          · simp only [upd_apply, hx1, hx2, if_false]; exact h1
          · intro y hy f hf
            simp only [upd_apply, hnf y hy, hnf1 y hy, if_false]; exact hf
          · simp
        · refine List.rel_append (.cons ?_ (forall2_of_get h4 ?_)) (.cons ?_ .nil)
          · simp [Store.bind, Store.set, hSf, hx1, hx2]
          · intro y hy f hf
            simp [Store.bind, Store.set, hSf, hne y hy, hnf y hy, hnf1 y hy, hf]
          · simp [Store.bind, Store.set, hSf]
        · rw [List.nodup_append]
          refine ⟨by rw [List.nodup_cons]; exact hnd, by simp, ?_⟩
          intro y hy z hz
          simp only [List.mem_singleton] at hz
          subst hz
          exact Nat.ne_of_lt (Nat.lt_succ_of_lt (hlt y hy))
        · intro y hy
          rcases List.mem_append.mp hy with hy | hy
          · exact Q.ge y hy
          · simp only [List.mem_singleton] at hy
            subst hy
            exact Nat.le_succ_of_le Q.lefr
        · have := Q.lefr; omega
        · intro z hz
          have h7 : z ≠ x := fun e => absurd (Q.ge x (by simp)) (Nat.not_le.mpr (e ▸ hz))
          have h8 : z ≠ fr := fun e => absurd Q.lefr (Nat.not_le.mpr (e ▸ hz))
          have h9 : z ≠ fr + 1 := fun e => absurd (Nat.le_succ_of_le Q.lefr) (Nat.not_le.mpr (by rw [e] at hz; exact hz))
          have := Q.low z hz
          simp only [upd_apply, Store.bind, Store.set, hSf, h7, h8, h9, if_false]; exact this
        · intro z hz hzn
          simp only [List.cons_append, List.mem_cons, List.mem_append, List.mem_singleton, not_or, List.not_mem_nil, or_false] at hzn
          obtain ⟨h7, h8, h9⟩ := hzn
          by_cases hzf : z = fr
          · subst hzf
            simp [upd_apply, Store.bind, Store.set, hSf, h7, h9]
          · have := Q.high z hz (by simp [h7, h8])
            simp only [upd_apply, Store.bind, Store.set, hSf, h7, h9, hzf, if_false]; exact this

/-- Dropping an owning iteration. -/
theorem ownDrop : ∀ (s : List Addr) (L : List α) (h : Heap α) tss, OwnI env0 fr0 V0 L h s tss →
    ∃ h', dropIters ownSrc s h = .ok () h' ∧ OwnI env0 fr0 V0 (L ++ postL tss.flatten) h' [] [] := by
  intro s
  induction s with
  | nil =>
    intro L h tss H
    have := ownSpec.len _ _ _ H
    have : tss = [] := by simpa using this.symm
    subst this
    exact ⟨h, rfl, by simpa using H⟩
  | cons it rest ih =>
    intro L h tss H
    cases tss with
    | nil => have := ownSpec.len _ _ _ H; simp at this
    | cons us tss =>
      obtain ⟨h1, e1, H1⟩ := H.drop
      obtain ⟨h2, e2, H2⟩ := ih _ h1 tss H1
      refine ⟨h2, ?_, ?_⟩
      · simp only [dropIters, M.bind_apply, ownSrc, e1, Res.bind_ok]
        exact e2
      · simpa [postL_append] using H2

/-- When the queue is empty only the variables of the start are left. -/
theorem OwnI.fin {h : Heap α} (H : OwnI env0 fr0 V0 L h [] []) (he : ∀ z, fr0 ≤ z → env0 z = none) (hV : ∀ z, fr0 ≤ z → V0 z = none) :
    ∃ K, MInv ⟨h, env0, fr0⟩ K ∧ Abs ⟨h, env0, fr0⟩ K ⟨V0, fr0, L⟩ := by
  obtain ⟨env, fr, S, K, xs, Q⟩ := H
  have hxs : xs = [] := by have := Q.envQ.length_eq; simpa using this
  subst hxs
  have e1 : env = env0 := by
    funext z
    by_cases hz : z < fr0
    · exact (Q.low z hz).1
    · rw [(Q.high z (Nat.le_of_not_lt hz) (by simp)).1, he z (Nat.le_of_not_lt hz)]
  have e2 : S.vars = V0 := by
    funext z
    by_cases hz : z < fr0
    · exact (Q.low z hz).2
    · rw [(Q.high z (Nat.le_of_not_lt hz) (by simp)).2, hV z (Nat.le_of_not_lt hz)]
  obtain ⟨MI, A⟩ := Q.ok
  subst e1
  refine ⟨K, ⟨MI.inv, MI.st, MI.kv, MI.hnd, MI.dist, MI.all, he⟩, ⟨?_, rfl, ?_⟩⟩
  · intro z
    have := A.vars z
    rw [e2] at this
    exact this
  · rw [← Q.log]; exact A.log

theorem ownFull (he : ∀ z, fr0 ≤ z → env0 z = none) (hV : ∀ z, fr0 ≤ z → V0 z = none) :
    SrcFull (splittedNext ownSrc) (dropIters ownSrc) (SrcR (OwnI env0 fr0 V0 L))
      (fun h => ∃ K, MInv ⟨h, env0, fr0⟩ K ∧ Abs ⟨h, env0, fr0⟩ K ⟨V0, fr0, L⟩) := by
  refine ⟨ownSpec.ok framed_ownSrc, ?_, ?_, framed_ownSrc.dropIters, ?_⟩
  · rintro s h xs ⟨tss, ⟨env, fr, S, K, ys, Q⟩, -⟩; exact Q.ok.1.st
  · rintro s h xs n ⟨tss, ⟨env, fr, S, K, ys, Q⟩, e⟩
    exact ⟨tss, ⟨env, fr, S, K, ys, { Q with ok := ⟨minv_bump Q.ok.1 n, abs_bump Q.ok.2 n⟩ }⟩, e⟩
  · rintro s h ⟨tss, H, e⟩
    have hf : tss.flatten = [] := by
      have := congrArg List.length e
      rw [length_visits] at this
      exact countL_eq_zero this.symm
    obtain ⟨h', e', H'⟩ := ownDrop s L h tss H
    rw [hf] at H'
    exact ⟨h', e', OwnI.fin (by simpa using H') he hV⟩

end
end Trees
