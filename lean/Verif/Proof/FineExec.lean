import Verif.Proof.Conc
import Verif.Props.Alloc
/-
Whole programs of Model/Fine: what they do when nothing interferes.
-/
namespace Trees
set_option linter.unusedSimpArgs false
set_option linter.unusedVariables false
variable {α β γ : Type}

/-- Machines that satisfy the invariant: the results of a program are those of the specification. -/
theorem exec_spec : ∀ (ops : List (Op α)) (m : Machine α) (K : Addr → List Addr), MInv m K →
    (exec step m ops).2 = (exec specStep m.store ops).2 ∧ (exec step m ops).1.store = (exec specStep m.store ops).1 ∧
      ∃ K', MInv (exec step m ops).1 K' := by
  intro ops
  induction ops with
  | nil => intro m K M; exact ⟨rfl, rfl, K, M⟩
  | cons op ops ih =>
    intro m K M
    have := step_refines M M.abs_store op
    cases h1 : step m op <;> cases h2 : specStep m.store op <;> rw [h1, h2] at this <;> simp only [Sim] at this
    · obtain ⟨rfl, K', M', A'⟩ := this
      have := ih _ K' M'
      simp only [exec, h1, h2, Outcome.map]
      rw [← A'.store_eq M']
      exact ⟨by rw [this.1], this.2⟩
    · obtain ⟨K', M', A'⟩ := this
      have := ih _ K' M'
      simp only [exec, h1, h2, Outcome.map]
      rw [← A'.store_eq M']
      exact ⟨by rw [this.1], this.2⟩
    · have := ih _ K M
      simp only [exec, h1, h2, Outcome.map]
      exact ⟨by rw [this.1], this.2⟩

theorem step_not_bad {m : Machine α} {K : Addr → List Addr} (M : MInv m K) (op : Op α) : step m op ≠ .bad := by
  intro h
  have := step_refines M M.abs_store op
  rw [h] at this
  cases h2 : specStep m.store op <;> rw [h2] at this <;> simp only [Sim] at this

theorem step_minv {m : Machine α} {K : Addr → List Addr} (M : MInv m K) (op : Op α) :
    (∀ m' o, step m op = .ok m' o → ∃ K', MInv m' K') ∧ ∀ m', step m op = .panic m' → ∃ K', MInv m' K' := by
  have := step_refines M M.abs_store op
  constructor
  · intro m' o h
    rw [h] at this
    cases h2 : specStep m.store op <;> rw [h2] at this <;> simp only [Sim] at this
    obtain ⟨-, K', M', -⟩ := this
    exact ⟨K', M'⟩
  · intro m' h
    rw [h] at this
    cases h2 : specStep m.store op <;> rw [h2] at this <;> simp only [Sim] at this
    obtain ⟨K', M', -⟩ := this
    exact ⟨K', M'⟩

namespace Fine
variable {A : Alloc}

/-- A program of accesses, run without interruption, against the model. -/
def FRes (A : Alloc) (m' : Machine α) (ops : List (Op α)) (x : Option (Machine α × List (Outcome Unit α))) :
    Res (Heap α) (Vars × List (Outcome Unit α)) → Prop
  | .ok (v1, os) h1 => os = (Trees.exec Trees.step m' ops).2 ∧ AMRel A (v1.at h1) (Trees.exec Trees.step m' ops).1 ∧ x = some (v1.at h1, os)
  | .err e _ => e = .alloc ∧ x = none

theorem exec_run : ∀ (ops : List (Op α)) (v : Vars) (h : Heap α) (m' : Machine α) (K : Addr → List Addr), AMRel A (v.at h) m' → MInv m' K →
    FRes A m' ops (execA A (v.at h) ops) ((exec v ops).run A h) := by
  intro ops
  induction ops with
  | nil => intro v h m' K r M; exact ⟨rfl, r, rfl⟩
  | cons op ops ih =>
    intro v h m' K r M
    have hs := stepA_sim r op
    have hb := step_not_bad M op
    have hr := step_run (A := A) v h op
    have hm := step_minv M op
    simp only [exec, execA]
    rw [run_bind]
    have tail : ∀ (v1 : Vars) (h1 : Heap α) (m1 : Machine α) (K1 : Addr → List Addr) (o : Outcome Unit α), AMRel A (v1.at h1) m1 → MInv m1 K1 →
        (Trees.exec Trees.step m' (op :: ops)) = ((Trees.exec Trees.step m1 ops).1, o :: (Trees.exec Trees.step m1 ops).2) →
        FRes A m' (op :: ops) ((execA A (v1.at h1) ops).map fun q => (q.1, o :: q.2)) (((exec v1 ops).bind fun q => .ret (q.1, o :: q.2)).run A h1) := by
      intro v1 h1 m1 K1 o r1 M1 he
      have := ih v1 h1 m1 K1 r1 M1
      rw [run_bind]
      cases e : (exec v1 ops).run A h1 with
      | ok q h2 =>
        rw [e] at this
        obtain ⟨v2, os⟩ := q
        obtain ⟨f1, f2, f3⟩ := this
        rw [f3]
        refine ⟨?_, ?_, rfl⟩
        · rw [he, f1]
        · rw [he]; exact f2
      | err x h2 =>
        rw [e] at this
        obtain ⟨f1, f2⟩ := this
        rw [f2]
        exact ⟨f1, rfl⟩
    cases e1 : (step v op).run A h with
    | err x h1 =>
      rw [e1] at hr
      cases x with
      | alloc => simp only [SRel] at hr; rw [hr]; exact ⟨rfl, rfl⟩
      | ub =>
        simp only [SRel] at hr
        rw [hr] at hs
        cases e' : Trees.step m' op with
        | bad => exact absurd e' hb
        | _ => rw [e'] at hs; exact hs.elim
      | panic => exact hr.elim
      | fuel => exact hr.elim
    | ok q h1 =>
      rw [e1] at hr
      simp only [Res.bind]
      cases q with
      | ok v1 o =>
        simp only [SRel] at hr
        rw [hr] at hs ⊢
        cases e' : Trees.step m' op with
        | bad => exact absurd e' hb
        | ok m1 o' =>
          rw [e'] at hs
          obtain ⟨r1, rfl⟩ := hs
          obtain ⟨K1, M1⟩ := hm.1 _ _ e'
          exact tail v1 h1 m1 K1 (.ok () o) r1 M1 (by simp only [Trees.exec, e', Outcome.map])
        | panic _ => rw [e'] at hs; exact hs.elim
        | rejected => rw [e'] at hs; exact hs.elim
      | panic v1 =>
        simp only [SRel] at hr
        rw [hr] at hs ⊢
        cases e' : Trees.step m' op with
        | bad => exact absurd e' hb
        | panic m1 =>
          rw [e'] at hs
          obtain ⟨K1, M1⟩ := hm.2 _ e'
          exact tail v1 h1 m1 K1 (.panic ()) hs M1 (by simp only [Trees.exec, e', Outcome.map])
        | ok _ _ => rw [e'] at hs; exact hs.elim
        | rejected => rw [e'] at hs; exact hs.elim
      | rejected =>
        simp only [SRel] at hr
        obtain ⟨rfl, hr⟩ := hr
        rw [hr] at hs ⊢
        cases e' : Trees.step m' op with
        | bad => exact absurd e' hb
        | rejected => exact tail v h1 m' K .rejected r M (by simp only [Trees.exec, e', Outcome.map])
        | ok _ _ => rw [e'] at hs; exact hs.elim
        | panic _ => rw [e'] at hs; exact hs.elim
      | bad =>
        simp only [SRel] at hr
        rw [hr] at hs
        cases e' : Trees.step m' op with
        | bad => exact absurd e' hb
        | _ => rw [e'] at hs; exact hs.elim

/-! ### A run depends only on the choices that the allocator has made so far -/

/-- The same choices up to the counters of `h`. -/
structure Agree (A B : Alloc) (h : Heap α) : Prop where
  addr : ∀ a, a < h.nextAddr → B.addr a = A.addr a
  vec : ∀ v, v < h.nextVec → B.vec v = A.vec v

theorem acc_counters {a : Acc α} {H H' : Heap α} {x : a.Ret} (e : a.run A H = .ok x H') : H.nextAddr ≤ H'.nextAddr ∧ H.nextVec ≤ H'.nextVec := by
  cases a with
  | make d => simp only [Acc.run, makeNodeA] at e; split at e <;> cases e; exact ⟨Nat.le_succ _, Nat.le_refl _⟩
  | newVec n => simp only [Acc.run, newVecA] at e; split at e <;> cases e; exact ⟨Nat.le_add_right _ _, Nat.le_succ _⟩
  | ptr f b => cases f <;> (obtain ⟨-, -, rfl⟩ := rd_ok e; exact ⟨Nat.le_refl _, Nat.le_refl _⟩)
  | size b => obtain ⟨-, -, rfl⟩ := rd_ok e; exact ⟨Nat.le_refl _, Nat.le_refl _⟩
  | data b => obtain ⟨-, -, rfl⟩ := rd_ok e; exact ⟨Nat.le_refl _, Nat.le_refl _⟩
  | setPtr f b v =>
    cases f with
    | prev => obtain ⟨-, rfl⟩ := wr_ok (f := fun h => { h with prev := upd h.prev b v }) (b := b) e; exact ⟨Nat.le_refl _, Nat.le_refl _⟩
    | next => obtain ⟨-, rfl⟩ := wr_ok (f := fun h => { h with next := upd h.next b v }) (b := b) e; exact ⟨Nat.le_refl _, Nat.le_refl _⟩
    | head => obtain ⟨-, rfl⟩ := wr_ok (f := fun h => { h with head := upd h.head b v }) (b := b) e; exact ⟨Nat.le_refl _, Nat.le_refl _⟩
    | tail => obtain ⟨-, rfl⟩ := wr_ok (f := fun h => { h with tail := upd h.tail b v }) (b := b) e; exact ⟨Nat.le_refl _, Nat.le_refl _⟩
    | up => obtain ⟨-, rfl⟩ := wr_ok (f := fun h => { h with up := upd h.up b v }) (b := b) e; exact ⟨Nat.le_refl _, Nat.le_refl _⟩
  | setSize b v => obtain ⟨-, rfl⟩ := wr_ok (f := fun h => { h with size := upd h.size b v }) (b := b) e; exact ⟨Nat.le_refl _, Nat.le_refl _⟩
  | setData b v => obtain ⟨-, rfl⟩ := wr_ok (f := fun h => { h with data := upd h.data b v }) (b := b) e; exact ⟨Nat.le_refl _, Nat.le_refl _⟩
  | vecNode v i =>
    simp only [Acc.run, Trees.vecNode] at e
    split at e
    · cases e
    · split at e <;> cases e; exact ⟨Nat.le_refl _, Nat.le_refl _⟩
  | getRef v => simp only [Acc.run] at e; split at e <;> cases e; exact ⟨Nat.le_refl _, Nat.le_refl _⟩
  | setRef v => simp only [Acc.run] at e; split at e <;> cases e; exact ⟨Nat.le_refl _, Nat.le_refl _⟩
  | freeVec v => simp only [Acc.run] at e; split at e <;> cases e; exact ⟨Nat.le_refl _, Nat.le_refl _⟩
  | bound => simp only [Acc.run] at e; cases e; exact ⟨Nat.le_refl _, Nat.le_refl _⟩
  | logDrop d => simp only [Acc.run, Trees.logDrop] at e; cases e; exact ⟨Nat.le_refl _, Nat.le_refl _⟩
  | rcDrop o =>
    simp only [Acc.run, Trees.rcDrop] at e
    split at e
    · split at e
      · cases e; exact ⟨Nat.le_refl _, Nat.le_refl _⟩
      · split at e <;> cases e; exact ⟨Nat.le_refl _, Nat.le_refl _⟩
    · cases e

theorem Agree.mono {A B : Alloc} {h h' : Heap α} (g : Agree A B h') (c : h.nextAddr ≤ h'.nextAddr ∧ h.nextVec ≤ h'.nextVec) : Agree A B h :=
  ⟨fun a ha => g.addr a (Nat.lt_of_lt_of_le ha c.1), fun a ha => g.vec a (Nat.lt_of_lt_of_le ha c.2)⟩

theorem inUse_agree {A B : Alloc} {h : Heap α} (g : Agree A B h) (x : Addr) : inUse B h x = inUse A h x := by
  rw [Bool.eq_iff_iff, inUse_iff, inUse_iff]
  constructor <;> rintro (l | ⟨v, nv, h1, h2, h3⟩)
  · exact .inl l
  · exact .inr ⟨v, nv, h1, by rw [← g.vec v h1]; exact h2, h3⟩
  · exact .inl l
  · exact .inr ⟨v, nv, h1, by rw [g.vec v h1]; exact h2, h3⟩

theorem acc_agree {A B : Alloc} {a : Acc α} {H H' : Heap α} {x : a.Ret} (e : a.run A H = .ok x H') (g : Agree A B H') : a.run B H = .ok x H' := by
  have g0 := g.mono (acc_counters e)
  cases a with
  | make d =>
    simp only [Acc.run, makeNodeA] at e ⊢
    split at e
    · rename_i ok
      have g1 : B.addr H.nextAddr = A.addr H.nextAddr := by
        cases e; exact g.addr _ (Nat.lt_succ_self _)
      have ok' : B.okNode H = true := by
        simp only [Alloc.okNode] at ok ⊢
        rw [inUse_agree g0, g1]; exact ok
      rw [if_pos ok', g1]; exact e
    · cases e
  | newVec n =>
    simp only [Acc.run, newVecA] at e ⊢
    split at e
    · rename_i ok
      have g1 : ∀ k, k < n + 1 → B.addr (H.nextAddr + k) = A.addr (H.nextAddr + k) := by
        intro k hk; cases e; exact g.addr _ (Nat.add_lt_add_left hk _)
      have g2 : B.vec H.nextVec = A.vec H.nextVec := by
        cases e; exact g.vec _ (Nat.lt_succ_self _)
      have g3 : B.addr H.nextAddr = A.addr H.nextAddr := g1 0 (Nat.succ_pos _)
      have ok' : B.okBlock H (n + 1) = true := by
        simp only [Alloc.okBlock, Bool.and_eq_true, List.all_eq_true, List.mem_range] at ok ⊢
        refine ⟨by rw [g2]; exact ok.1, fun k hk => ?_⟩
        rw [g1 k hk, g3, inUse_agree g0]
        exact ok.2 k hk
      rw [if_pos ok', g3, g2]; exact e
    · cases e
  | _ => exact e

theorem run_agree {A B : Alloc} {p : Prog α β} {h h' : Heap α} {b : β} (e : p.run A h = .ok b h') (g : Agree A B h') :
    p.run B h = .ok b h' ∧ h.nextAddr ≤ h'.nextAddr ∧ h.nextVec ≤ h'.nextVec := by
  induction p generalizing h with
  | ret c => cases e; exact ⟨rfl, Nat.le_refl _, Nat.le_refl _⟩
  | fail x => cases e
  | acc a k ih =>
    simp only [Prog.run] at e ⊢
    cases e1 : a.run A h with
    | ok x h1 =>
      rw [e1] at e
      obtain ⟨f1, f2⟩ := ih x e
      have c := acc_counters e1
      rw [acc_agree e1 (g.mono f2)]
      exact ⟨f1, Nat.le_trans c.1 f2.1, Nat.le_trans c.2 f2.2⟩
    | err x h1 => rw [e1] at e; cases e

/-- The state after a program is related to the model by every allocator that has made the same choices so far. -/
theorem amrel_agree {A B : Alloc} {ops : List (Op α)} {m : Machine α} {os : List (Outcome Unit α)} (e : execA A Machine.empty ops = some (m, os))
    (g : Agree A B m.heap) : AMRel B m (Trees.exec Trees.step Machine.empty ops).1 := by
  have h1 := exec_run ops ⟨fun _ => none, 0⟩ Heap.empty Machine.empty _ (Proof.amrel_empty A) Proof.minv_empty
  have h2 := exec_run ops ⟨fun _ => none, 0⟩ Heap.empty Machine.empty _ (Proof.amrel_empty B) Proof.minv_empty
  cases e1 : (exec ⟨fun _ => none, 0⟩ ops).run A (Heap.empty : Heap α) with
  | err x hx => rw [e1] at h1; exact absurd (h1.2.symm.trans e) (by simp)
  | ok q hx =>
    obtain ⟨v, os'⟩ := q
    rw [e1] at h1
    have h3 := h1.2.2.symm.trans e
    simp only [Option.some.injEq, Prod.mk.injEq] at h3
    obtain ⟨rfl, rfl⟩ := h3
    rw [(run_agree e1 g).1] at h2
    exact h2.2.1

end Fine
end Trees
