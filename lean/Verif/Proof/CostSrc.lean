import Verif.Proof.CostFill
/-
The work of the sources of breadth-first iterations.
-/
namespace Trees
namespace Fine
open RTree
set_option linter.unusedSimpArgs false
set_option linter.unusedVariables false
variable {α β γ δ κ σ ι : Type}

/-! ### By reference -/

theorem iterNext_none {it it' : RawIter} {h h' : Heap α} (e : Trees.RawIter.next it h = .ok (none, it') h') : cost .fresh (iterNext it) h = 0 := by
  unfold iterNext
  unfold Trees.RawIter.next at e
  by_cases hl : it.len = 0
  · simp only [hl, if_true]; rfl
  · simp only [hl, if_false] at e ⊢
    cases hc : it.curr with
    | none => simp only [uncountedNext, pure_bind_p]; rfl
    | some c =>
      rw [hc] at e
      simp only [Trees.uncountedNext, M.bind_apply] at e
      cases e1 : Trees.getNext c h with
      | err x s => rw [e1] at e; simp at e
      | ok x s => rw [e1] at e; simp at e

theorem cst_iterNext1 (it : RawIter) : Cst .fresh (iterNext it : Prog α _) 1 := (cst_iterNext it).mono (by omega)

theorem cst_splitted {S : Src α RawIter Addr δ} (hn : S.next = iterNext) (hd : ∀ it, S.drop it = pure ()) (hl : ∀ it, S.len it = pure it.len)
    {n : Nat} (hs : ∀ k, Cst .fresh (S.split k) n) : ∀ q : List RawIter, Cst .fresh (splittedNext S q) (n + 1)
  | [] => (Cst.pure _).mono (by omega)
  | it :: rest => by
    intro h
    unfold splittedNext
    rw [cost_bind, hn]
    have h1 := cst_iterNext1 (α := α) it h
    have h2 := imp_iterNext (A := .fresh) it h
    cases e : (iterNext it).run .fresh h with
    | err x s => simp only; omega
    | ok o s =>
      obtain ⟨o, it'⟩ := o
      cases o with
      | none =>
        rw [e] at h2
        have := iterNext_none h2.symm
        simp only [hd, pure_bind_p]
        have := cst_splitted hn hd hl hs rest s
        omega
      | some k =>
        have : Cst .fresh (S.split k >>= fun q => S.len q.2.1 >>= fun x => Pure.pure (some (q.1, (⟨x, q.2.2⟩ : Size)), it' :: rest ++ [q.2.1])) (n + 0) :=
          (hs k).bind fun q => by simp only [hl, pure_bind_p]; exact Cst.pure _
        have := this s
        simp only
        refine Nat.le_trans (Nat.add_le_add h1 this) (by omega)

theorem cst_refSplit (a : Addr) : Cst .fresh ((refSrc : Src α _ _ _).split a) 4 := by
  refine Cst.mono (Cst.bind (cst_dataRef a) fun d => Cst.bind (cst_iter a) fun it => (?_ : Cst .fresh _ 1)) (by omega)
  exact CI.cst fun u => by ci

theorem cst_mutSplit (a : Addr) : Cst .fresh ((mutSrc : Src α _ _ _).split a) 4 := by
  refine Cst.mono (Cst.bind (n := 1) (CI.cst fun u => CI.getSize' _ 0) fun s => Cst.bind (cst_dataRef a) fun d => Cst.bind (cst_iter a) fun it => Cst.pure _) (by omega)

theorem cst_refNext (q : List RawIter) : Cst .fresh (splittedNext (refSrc : Src α _ _ _) q) 5 := cst_splitted rfl (fun _ => rfl) (fun _ => rfl) cst_refSplit q
theorem cst_mutNext (q : List RawIter) : Cst .fresh (splittedNext (mutSrc : Src α _ _ _) q) 5 := cst_splitted rfl (fun _ => rfl) (fun _ => rfl) cst_mutSplit q

theorem cst_refDrop : ∀ q : List RawIter, Cst .fresh (dropIters (refSrc : Src α _ _ _) q) 0
  | [] => Cst.pure _
  | it :: rest => cst_refDrop rest

theorem refCost (R : List RawIter → Heap α → List (α × Size) → Prop) :
    SrcCost (splittedNext refSrc) (Trees.splittedNext Trees.refSrc) (dropIters refSrc) R 5 (fun _ => 0) where
  upto := upto_splittedNext supto_ref
  step _ _ _ _ _ _ _ _ _ _ _ _ := cst_refNext _ _
  fin _ _ _ _ _ h := Nat.le_zero.mp (cst_refDrop _ h)

theorem SrcCost.map {p : σ → Prog α (Option (δ × Size) × σ)} {c : σ → M α (Option (δ × Size) × σ)} {pd : σ → Prog α Unit}
    {R : σ → Heap α → List (δ × Size) → Prop} {N : Nat} {Φ : σ → Nat} (H : SrcCost p c pd R N Φ) (f : Nat → δ → κ) :
    SrcCost (mapNext f p) (Trees.mapNext f c) (fun s => pd s.1) (MapR R f) N (fun s => Φ s.1) where
  upto := upto_mapNext f H.upto
  step := by
    rintro ⟨s, i⟩ h ys o s' h' ⟨xs, hx, -⟩ e P Q F A
    simp only [Trees.mapNext, M.bind_apply] at e
    cases e1 : c s h with
    | err x t => rw [e1] at e; simp at e
    | ok q t =>
      obtain ⟨o1, s1⟩ := q
      have := H.step s h xs o1 s1 t hx e1 P Q F A
      have hs' : s'.1 = s1 := by
        rw [e1] at e
        cases o1 <;> (simp only [Res.bind_ok, M.pure_apply, Res.ok.injEq, Prod.mk.injEq] at e; obtain ⟨⟨-, rfl⟩, -⟩ := e; rfl)
      unfold mapNext
      have hle : cost .fresh (p s >>= fun q => match q.1 with
          | some v => (Pure.pure (some (f i v.1, v.2), (q.2, i + 1)) : Prog α _)
          | none => Pure.pure (none, (q.2, i))) (join P Q h F) ≤ cost .fresh (p s) (join P Q h F) + 0 :=
        cost_seqC (Nat.le_refl _) fun q => by cases q.1 <;> exact Cst.pure _
      rw [hs']
      refine Nat.le_trans (Nat.add_le_add_right hle _) ?_
      simpa using this
  fin := by
    rintro ⟨s, i⟩ h s' h' e
    simp only [Trees.mapNext, M.bind_apply] at e
    cases e1 : c s h with
    | err x t => rw [e1] at e; simp at e
    | ok q t =>
      obtain ⟨o1, s1⟩ := q
      rw [e1] at e
      cases o1 with
      | some v => simp at e
      | none =>
        simp only [Res.bind_ok, M.pure_apply, Res.ok.injEq, Prod.mk.injEq] at e
        obtain ⟨⟨-, rfl⟩, -⟩ := e
        exact H.fin _ _ _ _ e1

/-! ### Owning -/

theorem popFront_deg0 {a : Addr} {h : Heap α} (hl : h.live a = true) (hd : (h.size a).degree = 0) : Trees.popFront a h = .ok none h := by
  simp [Trees.popFront, Trees.getSize, rd, hl, hd]

theorem intoIterDrop_cost_nil {f : Addr} {h : Heap α} (hl : h.live f = true) (hd : (h.size f).degree = 0) :
    cost .fresh (intoIterDrop f) h ≤ 10 := by
  have e := popFront_deg0 hl hd
  have c := cost_popFront_nil (A := .fresh) hl hd
  unfold intoIterDrop
  refine Nat.le_trans (cost_seq (n := 1) (k := 9) (imp_getSize f).upto (getSize_ok hl) (Nat.le_of_eq (cost_access _ _)) ?_) (by omega)
  refine Nat.le_trans (cost_seq (n := 1) (k := 8) (c := Trees.intoIterDropLoop ((h.size f).degree + 1) f) (b := ()) (h' := h)
    (imp_intoIterDropLoop _ f).upto ?_ ?_ ?_) (by omega)
  · simp only [Trees.intoIterDropLoop, M.bind_apply, e, Res.bind_ok, M.pure_apply]
  · unfold intoIterDropLoop
    exact Nat.le_trans (cost_seq (n := 1) (k := 0) (imp_popFront f).upto e (by omega) (Nat.le_refl _)) (by omega)
  · unfold dropRoot
    refine Nat.le_trans (cost_seq (n := 1) (k := 7) (imp_getSize f).upto (getSize_ok hl) (Nat.le_of_eq (cost_access _ _)) ?_) (by omega)
    unfold dropLoop
    exact Nat.le_trans (cost_seq (n := 1) (k := 6) (imp_popFront f).upto e (by omega) (cst_dropNode _ _)) (by omega)

theorem cst_ownSplit (a : Addr) : Cst .fresh ((ownSrc : Src α _ _ _).split a) 9 := by
  refine Cst.mono (Cst.bind (n := 1) (CI.cst fun u => CI.getSize' _ 0) fun s => Cst.bind (cst_abandon a) fun q =>
    Cst.bind (cst_intoData _) fun it => Cst.pure _) (by omega)

section
variable {env0 : Var → Option Handle} {fr0 : Nat} {V0 : Var → Option (Val α)}

theorem own_root {L : List α} {h : Heap α} {it : Addr} {rest : List Addr} {us : List (RTree α)} {tss : List (List (RTree α))}
    (H : OwnI env0 fr0 V0 L h (it :: rest) (us :: tss)) :
    h.live it = true ∧ h.up it = none ∧ (h.size it).degree = us.length := by
  obtain ⟨env, fr, S, K, xs, Q⟩ := H
  have hq := Q.envQ
  have hw := Q.varQ
  cases hq with
  | @cons x f xs' s' h1 h2 =>
    cases hw with
    | cons h3 h4 =>
      obtain ⟨MI, A⟩ := Q.ok
      have ho := MI.hnd x _ h1
      have hA := A.vars x
      simp only [h1] at hA
      obtain ⟨v, e, hd⟩ := hA
      rw [h3] at e
      obtain rfl := Option.some.inj e
      have hs := MI.inv.sz_den ho.used hd
      simp only [Handle.addr] at hs
      exact ⟨ho.used.1, ho.root, by rw [hs]⟩

theorem ownNext_cost : ∀ (s : List Addr) (L : List α) (h : Heap α) (tss : List (List (RTree α))) (o : Option (α × Size)) (s' : List Addr) (h' : Heap α),
    OwnI env0 fr0 V0 L h s tss → Trees.splittedNext Trees.ownSrc s h = .ok (o, s') h' →
    ∀ P Q F, Avoid P Q h → cost .fresh (splittedNext ownSrc s) (join P Q h F) + 11 * s'.length ≤ 32 + 11 * s.length := by
  intro s
  induction s with
  | nil =>
    intro L h tss o s' h' H e P Q F A
    simp only [Trees.splittedNext, M.pure_apply, Res.ok.injEq, Prod.mk.injEq] at e
    obtain ⟨⟨-, rfl⟩, -⟩ := e
    show 0 + _ ≤ _
    simp
  | cons it rest ih =>
    intro L h tss o s' h' H e P Q F A
    cases tss with
    | nil => have := ownSpec.len _ _ _ H; simp at this
    | cons us tss =>
    obtain ⟨hl, hu, hd⟩ := own_root H
    have hp := A.notP hl
    have jl : (join P Q h F).live it = true := by simp [join, hp, hl]
    have ju : (join P Q h F).up it = none := by simp [join, hp, hu]
    have js : (join P Q h F).size it = h.size it := by simp [join, hp]
    unfold splittedNext
    have cn : ∀ k : Option Addr × Addr → Prog α (Option (α × Size) × List Addr),
        ((ownSrc : Src α _ _ _).next it >>= k) = (Fine.popFront it >>= fun o => k (o, it)) := by
      intro k
      simp only [ownSrc]
      rw [bind_assoc_p]
      rfl
    rw [cn]
    cases us with
    | nil =>
      have e1 := popFront_deg0 hl hd
      obtain ⟨h1, e2, H1⟩ := H.drop
      simp only [Trees.splittedNext, Trees.ownSrc, M.bind_apply, e1, Res.bind_ok, M.pure_apply, e2] at e
      obtain ⟨A1, e2'⟩ := framed_intoIterDrop _ P Q F _ _ _ A e2
      have := ih _ _ _ _ _ _ H1 e P Q F A1
      have c1 := cost_popFront_nil (A := .fresh) jl (by rw [js]; exact hd)
      have c2 := intoIterDrop_cost_nil jl (by rw [js]; exact hd)
      simp only [List.length_cons]
      refine Nat.le_trans (Nat.add_le_add_right (cost_seq (n := 1) (k := 10 + cost .fresh (splittedNext ownSrc rest) (join P Q h1 F))
        (imp_popFront it).upto (popFront_deg0 jl (by rw [js]; exact hd)) (Nat.le_of_eq c1)
        (cost_seq (imp_intoIterDrop it).upto e2' c2 (Nat.le_refl _))) _) ?_
      omega
    | cons t us =>
      have c1 := cost_popFront_root (A := .fresh) ju
      have hs' : s'.length = rest.length + 2 := by
        obtain ⟨env, fr, S, K, xs, Q⟩ := H
        have hq := Q.envQ
        have hw := Q.varQ
        cases hq with
        | @cons x f xs' s'' h1 h2 =>
        cases hw with
        | cons h3 h4 =>
        obtain ⟨c, h1', K', e1, -⟩ := own_pop_cons Q.ok h1 h3
        simp only [Trees.splittedNext, M.bind_apply] at e
        have e0 : Trees.ownSrc.next it h = .ok (some c, it) h1' := by simp only [Trees.ownSrc, M.bind_apply, e1, Res.bind_ok, M.pure_apply]
        rw [e0, Res.bind_ok] at e
        simp only [M.bind_apply] at e
        cases e5 : Trees.ownSrc.split c h1' with
        | err x y => rw [e5] at e; simp at e
        | ok q y =>
          obtain ⟨q1, q2, q3⟩ := q
          rw [e5, Res.bind_ok] at e
          simp only [M.bind_apply] at e
          cases e6 : Trees.ownSrc.len q2 y with
          | err x z => rw [e6] at e; simp at e
          | ok n z =>
            rw [e6] at e
            simp only [Res.bind_ok, M.pure_apply, Res.ok.injEq, Prod.mk.injEq] at e
            obtain ⟨⟨-, rfl⟩, -⟩ := e
            simp
      have hne : ∃ c g, Trees.popFront it (join P Q h F) = .ok (some c) g := by
        obtain ⟨env, fr, S, K, xs, Q'⟩ := H
        have hq := Q'.envQ
        have hw := Q'.varQ
        cases hq with
        | @cons x f xs' s'' h1 h2 =>
        cases hw with
        | cons h3 h4 =>
        obtain ⟨c, h1', K', e1, -⟩ := own_pop_cons Q'.ok h1 h3
        obtain ⟨A1, e1'⟩ := framed_popFront _ P Q F _ _ _ A e1
        exact ⟨c, _, e1'⟩
      obtain ⟨c, g, e1⟩ := hne
      have c4 : Cst .fresh ((ownSrc : Src α _ _ _).split c >>= fun q => (ownSrc : Src α _ _ _).len q.2.1 >>= fun n =>
              Pure.pure (some (q.1, (⟨n, q.2.2⟩ : Size)), it :: rest ++ [q.2.1])) (9 + (1 + 0)) :=
        (cst_ownSplit c).bind fun q => Cst.bind (n := 1) (by
          show Cst .fresh (Fine.degree q.2.1 : Prog α _) 1
          exact CI.cst fun u => by unf; ci) fun _ => Cst.pure _
      have c5 := c4 g
      simp only [List.length_cons]
      refine Nat.le_trans (Nat.add_le_add_right (cost_seq (n := 11) (k := 10) (imp_popFront it).upto e1 c1 c5) _) ?_
      omega

theorem ownCost {L : List α} :
    SrcCost (splittedNext ownSrc) (Trees.splittedNext Trees.ownSrc) (dropIters ownSrc) (SrcR (OwnI env0 fr0 V0 L)) 32 (fun s => 11 * s.length) where
  upto := upto_splittedNext supto_own
  step := by
    rintro s h xs o s' h' ⟨tss, H, -⟩ e P Q F A
    exact ownNext_cost s L h tss o s' h' H e P Q F A
  fin := by
    intro s
    induction s with
    | nil =>
      intro h s' h' e h''
      simp only [Trees.splittedNext, M.pure_apply, Res.ok.injEq, Prod.mk.injEq] at e
      obtain ⟨⟨-, rfl⟩, -⟩ := e
      rfl
    | cons it rest ih =>
      intro h s' h' e h''
      simp only [Trees.splittedNext, M.bind_apply] at e
      cases e1 : Trees.ownSrc.next it h with
      | err x y => rw [e1] at e; simp at e
      | ok q y =>
        obtain ⟨o, it'⟩ := q
        rw [e1, Res.bind_ok] at e
        cases o with
        | none =>
          simp only [M.bind_apply] at e
          cases e2 : Trees.ownSrc.drop it' y with
          | err x z => rw [e2] at e; simp at e
          | ok q z => rw [e2, Res.bind_ok] at e; exact ih _ _ _ e h''
        | some c =>
          exfalso
          simp only [M.bind_apply] at e
          cases e5 : Trees.ownSrc.split c y with
          | err x y => rw [e5] at e; simp at e
          | ok q y =>
            obtain ⟨q1, q2, q3⟩ := q
            rw [e5, Res.bind_ok] at e
            simp only [M.bind_apply] at e
            cases e6 : Trees.ownSrc.len q2 y with
            | err x z => rw [e6] at e; simp at e
            | ok n z => rw [e6] at e; simp at e

end

end Fine
end Trees
