import Verif.Proof.CostCst
/-
The work of consuming iterators, and of clones and conversions.
-/
namespace Trees
namespace Fine
open RTree
set_option linter.unusedSimpArgs false
set_option linter.unusedVariables false
variable {α β γ δ κ σ ι : Type}

theorem mok_iter {env : Var → Option Handle} {fr : Nat} {S : Store α} {h : Heap α} {K : Addr → List Addr} (H : MOK env fr S h K)
    {x : Var} {f : Addr} {ts : List (RTree α)} (hx : env x = some (.iter f)) (hv : S.vars x = some (.iter ts)) :
    h.live f = true ∧ h.up f = none ∧ h.size f = ⟨ts.length, countL ts⟩ := by
  obtain ⟨MI, A⟩ := H
  have ho := MI.hnd x _ hx
  have hA := A.vars x
  simp only [hx] at hA
  obtain ⟨v, e, hd⟩ := hA
  rw [hv] at e
  obtain rfl := Option.some.inj e
  have hs := MI.inv.sz_den ho.used hd
  simp only [Handle.addr] at hs
  exact ⟨ho.used.1, ho.root, hs⟩

theorem intoIterDropLoop_cost : ∀ (ts : List (RTree α)) {env : Var → Option Handle} {fr : Nat} {S : Store α} {h : Heap α} {K : Addr → List Addr},
    MOK env fr S h K → ∀ {x : Var} {f : Addr}, env x = some (.iter f) → S.vars x = some (.iter ts) → ∀ k, ts.length < k →
    cost .fresh (intoIterDropLoop k f) h ≤ 19 * countL ts + 1 ∧
      ∃ h', Trees.intoIterDropLoop k f h = .ok () h' ∧ h'.live f = true ∧ h'.size f = .default
  | [], env, fr, S, h, K, H, x, f, hx, hv, k, hk => by
    obtain ⟨hl, hu, hs⟩ := mok_iter H hx hv
    obtain ⟨k, rfl⟩ : ∃ j, k = j + 1 := ⟨k - 1, by simp at hk; omega⟩
    have e := own_pop_nil H hx hv
    refine ⟨?_, h, ?_, hl, by rw [hs]; simp [Size.default]⟩
    · unfold intoIterDropLoop
      exact Nat.le_trans (cost_seq (n := 1) (k := 0) (imp_popFront f).upto e (Nat.le_of_eq (cost_popFront_nil hl (by rw [hs]; rfl))) (Nat.le_refl _)) (by omega)
    · simp only [Trees.intoIterDropLoop, M.bind_apply, e, Res.bind_ok, M.pure_apply]
  | t :: ts, env, fr, S, h, K, H, x, f, hx, hv, k, hk => by
    obtain ⟨hl, hu, hs⟩ := mok_iter H hx hv
    obtain ⟨k, rfl⟩ : ∃ j, k = j + 1 := ⟨k - 1, by simp at hk; omega⟩
    obtain ⟨c, h1, K1, e1, H1⟩ := own_pop_cons H hx hv
    have hxf : x ≠ fr := fun e => by have := H.1.fr fr (Nat.le_refl _); subst e; simp [hx] at this
    have hSf : S.fresh = fr := H.2.fresh
    have hA := H1.2.vars fr
    simp only [upd_self] at hA
    obtain ⟨v, ev, hd⟩ := hA
    have ev' : v = .tree t := by
      have : ((S.set x (some (.iter ts))).bind (.tree t)).vars fr = some (.tree t) := by simp [Store.bind, Store.set, hSf]
      rw [this] at ev; exact (Option.some.inj ev).symm
    subst ev'
    have ho := H1.1.hnd fr _ (upd_self _ _ _)
    obtain ⟨h2, K2, e2, D⟩ := HDen.dropped H1.1.inv H1.1.st ho hd rfl
    have c2 := dropRoot_cost (A := .fresh) H1.1.inv H1.1.st ho.used ho.root hd.kids
    have H2 := minv_drop H1.1 H1.2 (upd_self _ _ _) D
    simp only [Handle.addr] at e2 c2
    obtain ⟨c3, h3, e3, l3, s3⟩ := intoIterDropLoop_cost ts (x := x) (f := f) H2 (by
        show upd (upd env fr _) fr none x = _
        rw [upd_of_ne _ _ hxf, upd_of_ne _ _ hxf, hx]) (by
        simp [Store.set, Store.bind, Store.drop, hSf, hxf]) k (by simp at hk; omega)
    refine ⟨?_, h3, ?_, l3, s3⟩
    · unfold intoIterDropLoop
      refine Nat.le_trans (cost_seq (n := 11) (k := 18 * countL t.kids + 8 + (19 * countL ts + 1)) (imp_popFront f).upto e1 (cost_popFront_root hu)
        (cost_seq (imp_dropRoot c).upto e2 c2 c3)) ?_
      have : countL (t :: ts) = countL t.kids + 1 + countL ts := by cases t; simp [RTree.count, RTree.countL]
      omega
    · simp only [Trees.intoIterDropLoop, M.bind_apply, e1, Res.bind_ok, e2]
      exact e3

theorem intoIterDrop_cost {env : Var → Option Handle} {fr : Nat} {S : Store α} {h : Heap α} {K : Addr → List Addr}
    (H : MOK env fr S h K) {x : Var} {f : Addr} {ts : List (RTree α)} (hx : env x = some (.iter f)) (hv : S.vars x = some (.iter ts)) :
    cost .fresh (intoIterDrop f) h ≤ 19 * countL ts + 10 := by
  obtain ⟨hl, hu, hs⟩ := mok_iter H hx hv
  obtain ⟨c, h', e, l', s'⟩ := intoIterDropLoop_cost ts H hx hv ((h.size f).degree + 1) (by rw [hs]; exact Nat.lt_succ_self _)
  unfold intoIterDrop
  refine Nat.le_trans (cost_seq (n := 1) (k := 19 * countL ts + 1 + 8) (imp_getSize f).upto (getSize_ok hl) (Nat.le_of_eq (cost_access _ _))
    (cost_seq (imp_intoIterDropLoop _ f).upto e c (dropRoot_cost_nil l' s'))) (by omega)

section
variable {env0 : Var → Option Handle} {fr0 : Nat} {V0 : Var → Option (Val α)}

theorem own_one {L : List α} {h : Heap α} {it : Addr} {rest : List Addr} {us : List (RTree α)} {tss : List (List (RTree α))}
    (H : OwnI env0 fr0 V0 L h (it :: rest) (us :: tss)) : cost .fresh (intoIterDrop it) h ≤ 19 * countL us + 10 := by
  obtain ⟨env, fr, S, K, xs, Q⟩ := H
  have hq := Q.envQ
  have hw := Q.varQ
  cases hq with
  | @cons x f xs' s' h1 h2 =>
    cases hw with
    | cons h3 h4 => exact intoIterDrop_cost Q.ok h1 h3

theorem ownDrop_cost : ∀ (s : List Addr) (L : List α) (h : Heap α) tss, OwnI env0 fr0 V0 L h s tss →
    cost .fresh (dropIters ownSrc s) h ≤ 19 * countL tss.flatten + 10 * s.length := by
  intro s
  induction s with
  | nil => intro L h tss H; exact Nat.zero_le _
  | cons it rest ih =>
    intro L h tss H
    cases tss with
    | nil => have := ownSpec.len _ _ _ H; simp at this
    | cons us tss =>
      obtain ⟨h1, e1, H1⟩ := H.drop
      have c1 := own_one H
      have c2 := ih _ h1 tss H1
      refine Nat.le_trans (cost_seq (imp_intoIterDrop it).upto e1 c1 c2) ?_
      simp only [List.flatten_cons, countL_append, List.length_cons]
      omega

theorem ownDrive_cost {L : List α} : ∀ (k : Nat) (s : List Addr) (h : Heap α) (tss : List (List (RTree α))), OwnI env0 fr0 V0 L h s tss →
    ∃ os s' h' tss', Trees.driveVisits (Trees.splittedNext Trees.ownSrc) k s h = .ok (os, s') h' ∧ OwnI env0 fr0 V0 L h' s' tss' ∧
      countL tss'.flatten ≤ countL tss.flatten ∧ cost .fresh (driveVisits (splittedNext ownSrc) k s) h + 11 * s'.length ≤ 32 * k + 11 * s.length := by
  intro k
  induction k with
  | zero => intro s h tss H; exact ⟨[], s, h, tss, rfl, H, Nat.le_refl _, by show 0 + _ ≤ _; omega⟩
  | succ k ih =>
    intro s h tss H
    have key : ∃ o s1 h1 tss1, Trees.splittedNext Trees.ownSrc s h = .ok (o, s1) h1 ∧ OwnI env0 fr0 V0 L h1 s1 tss1 ∧
        countL tss1.flatten ≤ countL tss.flatten := by
      cases hf : tss.flatten with
      | nil =>
        obtain ⟨h1, e1, H1⟩ := ownSpec.next_nil s h tss H hf
        exact ⟨_, _, h1, [], e1, H1, Nat.le_refl _⟩
      | cons t r =>
        obtain ⟨h1, s1, tss1, e1, H1, hf1⟩ := ownSpec.next_cons s h tss t r H hf
        refine ⟨_, _, h1, tss1, e1, H1, ?_⟩
        rw [hf1, countL_append]
        cases t; simp [RTree.count, RTree.countL]; omega
    obtain ⟨o, s1, h1, tss1, e1, H1, n1⟩ := key
    obtain ⟨os, s2, h2, tss2, e2, H2, n2, c2⟩ := ih s1 h1 tss1 H1
    have c1 := ownNext_cost s L h tss o s1 h1 H e1 (fun _ => false) (fun _ => false) h ⟨by simp, by simp, by simp, by simp, by simp⟩
    have hj : join (fun _ => false) (fun _ => false) h h = h := by cases h; rfl
    rw [hj] at c1
    refine ⟨o :: os, s2, h2, tss2, ?_, H2, Nat.le_trans n2 n1, ?_⟩
    · simp only [Trees.driveVisits, M.bind_apply, e1, Res.bind_ok, e2, M.pure_apply]
    · unfold driveVisits
      refine Nat.le_trans (Nat.add_le_add_right (cost_seq (upto_splittedNext supto_own s) e1 (Nat.le_refl _) (cost_seqC (k := 0) (Nat.le_refl _) fun _ => Cst.pure _)) _) ?_
      omega

theorem intoBfsDrive_cost {L : List α} {h : Heap α} {f : Addr} {ts : List (RTree α)} (H : OwnI env0 fr0 V0 L h [f] [ts]) (k : Nat) :
    cost .fresh (intoBfsDrive k f) h ≤ 32 * k + 19 * countL ts + 11 := by
  obtain ⟨os, s', h', tss', e, H', n', c⟩ := ownDrive_cost k [f] h [ts] H
  have c2 := ownDrop_cost s' L h' tss' H'
  unfold intoBfsDrive
  refine Nat.le_trans (cost_seq (upto_driveVisits (upto_splittedNext supto_own) k [f]) e (Nat.le_refl _) (cost_seqC (k := 0) c2 fun _ => Cst.pure _)) ?_
  simp at n' c
  omega

end
end Fine
end Trees
