import Verif.Proof.IterMut
/-
C09: changing the siblings while iterating over the children with `iter_mut()`.
-/
namespace Trees
set_option linter.unusedSimpArgs false
variable {α : Type}
open RTree

/-! ### Specification: what a plan makes of one child -/

/-- Variables whose trees are inserted before the child, in the order of the calls. -/
def Plan.before (p : Plan α) : List Var := p.acts.filterMap (fun | .insPrev y => some y | _ => none)
/-- Variables whose trees are inserted after the child, in the order of the calls. -/
def Plan.after (p : Plan α) : List Var := p.acts.filterMap (fun | .insNext y => some y | _ => none)
/-- The values assigned to the child's data, in the order of the calls. -/
def Plan.sets (p : Plan α) : List α := p.acts.filterMap (fun | .set d => some d | _ => none)
/-- The variables named, in the order of the calls. -/
def Plan.vars (p : Plan α) : List Var := p.acts.filterMap (fun | .insPrev y => some y | .insNext y => some y | _ => none)

/-- The child afterwards: the last value assigned, if any. -/
def Plan.child (p : Plan α) (t : RTree α) : RTree α := .node (p.sets.getLastD t.data) t.kids

/-- What takes the place of the child `t` in the child list (`τ` gives the tree in a variable): each
`insert_prev_sib` puts its tree directly before the child, each `insert_next_sib` directly after it. -/
def Plan.result (τ : Var → RTree α) (p : Plan α) (t : RTree α) : List (RTree α) :=
  p.before.map τ ++ (if p.det then [] else [p.child t]) ++ p.after.reverse.map τ

/-- The data values overwritten. -/
def Plan.overwritten (p : Plan α) (t : RTree α) : List α := (t.data :: p.sets).dropLast

/-- The trees detached. -/
def Plan.detached (p : Plan α) (t : RTree α) : List (RTree α) := if p.det then [p.child t] else []

/-! ### Algebra of `setKids` -/

theorem modKids_modKids {ts : List (RTree α)} {q : Path} {f g : List (RTree α) → List (RTree α)} :
    modKids (modKids ts q f) q g = modKids ts q (fun us => g (f us)) := by
  induction q generalizing ts with
  | nil => rfl
  | cons i q ih =>
    simp only [modKids]
    cases h : ts[i]? with
    | none => simp [h]
    | some t =>
      have hi : i < ts.length := (List.getElem?_eq_some_iff.mp h).1
      simp [hi, ih]

/-- The value `v` with the child list at `q` replaced by `L`. -/
def Val.withKids (v : Val α) (q : Path) (L : List (RTree α)) : Val α := v.setKids (modKids v.kids q (fun _ => L))

theorem Val.withKids_kids (v : Val α) (q : Path) (L) : (v.withKids q L).kids = modKids v.kids q (fun _ => L) := by
  cases v <;> rfl

theorem Val.withKids_isIter (v : Val α) (q : Path) (L) : (v.withKids q L).isIter = v.isIter := by cases v <;> rfl

theorem Val.withKids_withKids (v : Val α) (q : Path) (L L') : (v.withKids q L).withKids q L' = v.withKids q L' := by
  rw [Val.withKids, Val.withKids_kids, modKids_modKids]
  cases v <;> rfl

theorem Val.withKids_kidsAt {v : Val α} {q : Path} {us} (h : kidsAt v.kids q = some us) (L) :
    kidsAt (v.withKids q L).kids q = some L := by
  rw [Val.withKids_kids]; exact kidsAt_modKids h

theorem Val.withKids_self {v : Val α} {q : Path} {us} (h : kidsAt v.kids q = some us) : v.withKids q us = v := by
  have key : ∀ (q : Path) (ts : List (RTree α)), kidsAt ts q = some us → modKids ts q (fun _ => us) = ts := by
    intro q
    induction q with
    | nil => intro ts h; simp [kidsAt] at h; simp [modKids, h]
    | cons i q ih =>
      intro ts h
      simp only [kidsAt] at h
      cases ht : ts[i]? with
      | none => rw [ht] at h; simp at h
      | some t =>
        rw [ht] at h
        simp only at h
        simp only [modKids, ht, ih _ h, RTree.eta]
        obtain ⟨hi, e⟩ := List.getElem?_eq_some_iff.mp ht
        apply List.ext_getElem
        · simp
        · intro j h1 h2
          by_cases hj : i = j
          · subst hj; simp [e]
          · simp [hj]
  rw [Val.withKids, key q _ h]
  cases v with
  | tree t => simp [Val.setKids, Val.kids, RTree.eta]
  | forest _ => rfl
  | iter _ => rfl

/-! ### The loop -/

namespace Proof

theorem fresh_lt_of_view {m : Machine α} (hr : Reachable m) {x : Var} {v : Val α} (hx : m.view x = some v) : x < m.fresh := by
  obtain ⟨K, M⟩ := Proof.reachable_minv hr
  apply Nat.lt_of_not_le
  intro h
  simp [Machine.view, M.fr x h] at hx

/-- One call on the child at position `l.length`. -/
theorem body_acts (τ : Var → RTree α) {x : Var} {q : Path} {n c : Addr} {v : Val α} {us0 r : List (RTree α)}
    (hv : v.isIter = false) (hq : kidsAt v.kids q = some us0) :
    ∀ (as : List (Act α)) {m : Machine α} {a b : List Addr} {l after : List (RTree α)} {t : RTree α},
    Reachable m → m.view x = some (v.withKids q (l ++ t :: (after ++ r))) →
    IterCur m x q n (a ++ c :: b) → a.length = l.length →
    let p : Plan α := ⟨as, false⟩
    p.vars.Nodup → x ∉ p.vars → (∀ y ∈ p.vars, m.view y = some (.tree (τ y))) →
    ∃ m' a' b', m.acts c as = some m' ∧ Reachable m' ∧
      m'.view x = some (v.withKids q (l ++ p.before.map τ ++ p.child t :: (p.after.reverse.map τ ++ after ++ r))) ∧
      IterCur m' x q n (a' ++ c :: (b' ++ b)) ∧ a'.length = (l ++ p.before.map τ).length ∧ b'.length = p.after.length ∧
      (∀ y ∈ p.vars, m'.view y = none) ∧ (∀ z, z ≠ x → z ∉ p.vars → m'.view z = m.view z) ∧
      m'.store.dropped = m.store.dropped ++ p.overwritten t ∧ m'.fresh = m.fresh := by
  intro as
  induction as with
  | nil =>
    intro m a b l after t hr hx hc hl p _ _ _
    refine ⟨m, a, [], rfl, hr, ?_, by simpa using hc, by simp [p, Plan.before, hl], by simp [p, Plan.after], by simp [p, Plan.vars],
      fun _ _ _ => rfl, by simp [p, Plan.overwritten, Plan.sets], rfl⟩
    simpa [p, Plan.before, Plan.after, Plan.child, Plan.sets, RTree.eta] using hx
  | cons ac as ih =>
    intro m a b l after t hr hx hc hl p hnd hxn hτ
    have hwi : (v.withKids q (l ++ t :: (after ++ r))).isIter = false := by rw [Val.withKids_isIter]; exact hv
    have hwk := Val.withKids_kidsAt hq (l ++ t :: (after ++ r))
    cases ac with
    | insPrev y =>
      have hxy : x ≠ y := by rintro rfl; exact hxn (by simp [p, Plan.vars])
      obtain ⟨m1, c', h1, h2, h3⟩ := act_prev hr hx hwi hwk hc hl hxy (hτ y (by simp [p, Plan.vars]))
      obtain ⟨m1', g1, g2, g3, g4, g5, g6⟩ := c04_insertPrevSib hr hxy hx (hτ y (by simp [p, Plan.vars])) hwi hwk
      rw [h2] at g1
      obtain rfl : m1 = m1' := by injection g1
      have hf : m1.fresh = m.fresh := by
        have := c10_step hr (.insertPrevSib x (.child q l.length) y)
        have e := g1
        simp only [Machine.act] at h1
        cases hy : m.env y with
        | none => rw [hy] at h1; simp at h1
        | some hd =>
          rw [hy] at h1
          cases hd <;> simp [Machine.run, Machine.ret] at h1
          split at h1 <;> simp at h1
          rw [← h1]
      rw [show (v.withKids q (l ++ t :: (after ++ r))).setKids (modKids (v.withKids q (l ++ t :: (after ++ r))).kids q
        (fun _ => l ++ τ y :: t :: (after ++ r))) = (v.withKids q (l ++ t :: (after ++ r))).withKids q (l ++ τ y :: t :: (after ++ r))
        from rfl, Val.withKids_withKids] at g3
      have hnd' : y ∉ Plan.vars ⟨as, false⟩ ∧ (Plan.vars ⟨as, false⟩).Nodup := by
        simpa [p, Plan.vars] using hnd
      have hxn' : x ∉ Plan.vars ⟨as, false⟩ := by intro h; apply hxn; simp [p, Plan.vars] at h ⊢; exact .inr h
      have g3' : m1.view x = some (v.withKids q ((l ++ [τ y]) ++ t :: (after ++ r))) := by
        rw [g3]; simp
      obtain ⟨m', a', b', k1, k2, k3, k4, k5, k6, k7, k8, k9, k10⟩ := ih (l := l ++ [τ y]) (after := after) (t := t) g2 g3' h3
        (by simp [hl]) hnd'.2 hxn' (by
          intro z hz
          have hzy : z ≠ y := by rintro rfl; exact hnd'.1 hz
          have hzx : z ≠ x := by rintro rfl; exact hxn' hz
          rw [g5 z hzx hzy]
          exact hτ z (by simp [p, Plan.vars] at hz ⊢; exact .inr hz))
      refine ⟨m', a', b', by simp [Machine.acts, h1, k1], k2, ?_, k4, ?_, ?_, ?_, ?_, ?_, by rw [k10, hf]⟩
      · rw [k3]; simp [p, Plan.before, Plan.after, Plan.child, Plan.sets]
      · rw [k5]; simp [p, Plan.before]
      · rw [k6]; simp [p, Plan.after]
      · intro z hz
        have hz' : z = y ∨ z ∈ Plan.vars ⟨as, false⟩ := by simpa [p, Plan.vars] using hz
        rcases hz' with rfl | hz'
        · rw [k8 z (Ne.symm hxy) hnd'.1]; exact g4
        · exact k7 z hz'
      · intro z hz1 hz2
        have hz' : z ≠ y ∧ z ∉ Plan.vars ⟨as, false⟩ := by simpa [p, Plan.vars] using hz2
        rw [k8 z hz1 hz'.2, g5 z hz1 hz'.1]
      · rw [k9, g6]; simp [p, Plan.overwritten, Plan.sets]
    | insNext y =>
      have hxy : x ≠ y := by rintro rfl; exact hxn (by simp [p, Plan.vars])
      obtain ⟨m1, c', h1, h2, h3⟩ := act_next hr hx hwi hwk hc hl hxy (hτ y (by simp [p, Plan.vars]))
      obtain ⟨m1', g1, g2, g3, g4, g5, g6⟩ := c04_insertNextSib hr hxy hx (hτ y (by simp [p, Plan.vars])) hwi hwk
      rw [h2] at g1
      obtain rfl : m1 = m1' := by injection g1
      have hf : m1.fresh = m.fresh := by
        simp only [Machine.act] at h1
        cases hy : m.env y with
        | none => rw [hy] at h1; simp at h1
        | some hd =>
          rw [hy] at h1
          cases hd <;> simp [Machine.run, Machine.ret] at h1
          split at h1 <;> simp at h1
          rw [← h1]
      rw [show (v.withKids q (l ++ t :: (after ++ r))).setKids (modKids (v.withKids q (l ++ t :: (after ++ r))).kids q
        (fun _ => l ++ t :: τ y :: (after ++ r))) = (v.withKids q (l ++ t :: (after ++ r))).withKids q (l ++ t :: τ y :: (after ++ r))
        from rfl, Val.withKids_withKids] at g3
      have hnd' : y ∉ Plan.vars ⟨as, false⟩ ∧ (Plan.vars ⟨as, false⟩).Nodup := by
        simpa [p, Plan.vars] using hnd
      have hxn' : x ∉ Plan.vars ⟨as, false⟩ := by intro h; apply hxn; simp [p, Plan.vars] at h ⊢; exact .inr h
      have g3' : m1.view x = some (v.withKids q (l ++ t :: ((τ y :: after) ++ r))) := by
        rw [g3]; simp
      obtain ⟨m', a', b', k1, k2, k3, k4, k5, k6, k7, k8, k9, k10⟩ := ih (l := l) (after := τ y :: after) (t := t) (b := c' :: b)
        g2 g3' h3 hl hnd'.2 hxn' (by
          intro z hz
          have hzy : z ≠ y := by rintro rfl; exact hnd'.1 hz
          have hzx : z ≠ x := by rintro rfl; exact hxn' hz
          rw [g5 z hzx hzy]
          exact hτ z (by simp [p, Plan.vars] at hz ⊢; exact .inr hz))
      refine ⟨m', a', b' ++ [c'], by simp [Machine.acts, h1, k1], k2, ?_, by simpa using k4, ?_, ?_, ?_, ?_, ?_, by rw [k10, hf]⟩
      · rw [k3]; simp [p, Plan.before, Plan.after, Plan.child, Plan.sets]
      · rw [k5]; simp [p, Plan.before]
      · simp [k6, p, Plan.after]
      · intro z hz
        have hz' : z = y ∨ z ∈ Plan.vars ⟨as, false⟩ := by simpa [p, Plan.vars] using hz
        rcases hz' with rfl | hz'
        · rw [k8 z (Ne.symm hxy) hnd'.1]; exact g4
        · exact k7 z hz'
      · intro z hz1 hz2
        have hz' : z ≠ y ∧ z ∉ Plan.vars ⟨as, false⟩ := by simpa [p, Plan.vars] using hz2
        rw [k8 z hz1 hz'.2, g5 z hz1 hz'.1]
      · rw [k9, g6]; simp [p, Plan.overwritten, Plan.sets]
    | set d =>
      obtain ⟨d0, ks⟩ := t
      obtain ⟨m1, h1, h2, h3⟩ := act_set (d := d) hr hx hwi hwk hc hl
      obtain ⟨m1', g1, g2, g3, g5, g6, -⟩ := c40_setData_child (d' := d) hr hx hwi hwk
      rw [h2] at g1
      obtain rfl : m1 = m1' := by injection g1
      have hf : m1.fresh = m.fresh := by
        simp only [Machine.act, Machine.run, Machine.ret] at h1
        split at h1 <;> simp at h1
        rw [← h1]
      rw [show (v.withKids q (l ++ node d0 ks :: (after ++ r))).setKids (modKids (v.withKids q (l ++ node d0 ks :: (after ++ r))).kids q
        (fun _ => l ++ node d ks :: (after ++ r))) = (v.withKids q (l ++ node d0 ks :: (after ++ r))).withKids q (l ++ node d ks :: (after ++ r))
        from rfl, Val.withKids_withKids] at g3
      have hnd' : (Plan.vars ⟨as, false⟩ : List Var).Nodup := by simpa [p, Plan.vars] using hnd
      have hxn' : x ∉ Plan.vars ⟨as, false⟩ := by intro h; apply hxn; simp [p, Plan.vars] at h ⊢; exact h
      obtain ⟨m', a', b', k1, k2, k3, k4, k5, k6, k7, k8, k9, k10⟩ := ih (l := l) (after := after) (t := node d ks) (b := b)
        g2 g3 h3 hl hnd' hxn' (by
          intro z hz
          have hzx : z ≠ x := by rintro rfl; exact hxn' hz
          rw [g5 z hzx]
          exact hτ z (by simp [p, Plan.vars] at hz ⊢; exact hz))
      refine ⟨m', a', b', by simp [Machine.acts, h1, k1], k2, ?_, k4, ?_, ?_, ?_, ?_, ?_, by rw [k10, hf]⟩
      · have hch : Plan.child ⟨.set d :: as, false⟩ (node d0 ks) = Plan.child ⟨as, false⟩ (node d ks) := by
          simp only [Plan.child, Plan.sets, List.filterMap_cons, List.getLastD_cons, RTree.data, RTree.kids]
        rw [k3]; simp only [p, hch]; simp [Plan.before, Plan.after]
      · rw [k5]; simp [p, Plan.before]
      · simp [k6, p, Plan.after]
      · intro z hz
        exact k7 z (by simpa [p, Plan.vars] using hz)
      · intro z hz1 hz2
        rw [k8 z hz1 (by simpa [p, Plan.vars] using hz2), g5 z hz1]
      · rw [k9, g6]; simp [p, Plan.overwritten, Plan.sets]

/-- The loop body. -/
theorem body_ok (τ : Var → RTree α) {x : Var} {q : Path} {n c : Addr} {v : Val α} {us0 r : List (RTree α)}
    (hv : v.isIter = false) (hq : kidsAt v.kids q = some us0) (p : Plan α)
    {m : Machine α} {a b : List Addr} {l : List (RTree α)} {t : RTree α}
    (hr : Reachable m) (hx : m.view x = some (v.withKids q (l ++ t :: r)))
    (hc : IterCur m x q n (a ++ c :: b)) (hl : a.length = l.length)
    (hnd : p.vars.Nodup) (hxn : x ∉ p.vars) (hτ : ∀ y ∈ p.vars, m.view y = some (.tree (τ y))) :
    ∃ m' a', m.body c p = some m' ∧ Reachable m' ∧
      m'.view x = some (v.withKids q (l ++ p.result τ t ++ r)) ∧
      IterCur m' x q n (a' ++ b) ∧ a'.length = (l ++ p.result τ t).length ∧
      (∀ y ∈ p.vars, m'.view y = none) ∧
      (∀ j s, (p.detached t)[j]? = some s → m'.view (m.fresh + j) = some (.tree s)) ∧
      (∀ z, z ≠ x → z ∉ p.vars → ¬ (m.fresh ≤ z ∧ z < m'.fresh) → m'.view z = m.view z) ∧
      m'.store.dropped = m.store.dropped ++ p.overwritten t ∧ m'.fresh = m.fresh + (p.detached t).length := by
  obtain ⟨as, det⟩ := p
  obtain ⟨m1, a1, b1, k1, k2, k3, k4, k5, k6, k7, k8, k9, k10⟩ := body_acts τ hv hq as (after := []) hr hx hc hl hnd hxn hτ
  cases det with
  | false =>
    refine ⟨m1, a1 ++ c :: b1, by simp [Machine.body, k1], k2, ?_, by simpa using k4, ?_, k7, ?_, ?_, k9, ?_⟩
    · rw [k3]; simp [Plan.result, Plan.before, Plan.after, Plan.child, Plan.sets]
    · simp [k5, k6, Plan.result, Plan.before, Plan.after]; omega
    · simp [Plan.detached]
    · intro z h1 h2 _; exact k8 z h1 h2
    · simp [Plan.detached, k10]
  | true =>
    have hwi : (v.withKids q (l ++ (Plan.before ⟨as, false⟩).map τ ++ Plan.child ⟨as, false⟩ t ::
      ((Plan.after ⟨as, false⟩).reverse.map τ ++ [] ++ r))).isIter = false := by rw [Val.withKids_isIter]; exact hv
    have hwk := Val.withKids_kidsAt hq (l ++ (Plan.before ⟨as, false⟩).map τ ++ Plan.child ⟨as, false⟩ t ::
      ((Plan.after ⟨as, false⟩).reverse.map τ ++ [] ++ r))
    obtain ⟨m2, h1, h2, h3⟩ := act_detach k2 k3 hwi hwk k4 k5
    obtain ⟨m2', g1, g2, g3, g4, g5, g6⟩ := c05_detach k2 k3 hwi hwk
    rw [h2] at g1
    obtain rfl : m2 = m2' := by injection g1
    have hf : m2.fresh = m1.fresh + 1 := by
      simp only [Machine.run, Machine.retVar] at h1
      split at h1 <;> simp at h1
      rw [← h1]
    have hvf : ∀ y ∈ Plan.vars (⟨as, true⟩ : Plan α), y ≠ m1.fresh := by
      intro y hy
      rw [k10]
      exact fresh_ne_of_view hr (hτ y hy)
    refine ⟨m2, a1 ++ b1, by simp [Machine.body, k1, h1], g2, ?_, by simpa using h3, ?_, ?_, ?_, ?_, ?_, ?_⟩
    · rw [g3]
      rw [show ∀ (w : Val α) L, w.setKids (modKids w.kids q (fun _ => L)) = w.withKids q L from fun _ _ => rfl,
        Val.withKids_withKids]
      simp [Plan.result, Plan.before, Plan.after]
    · simp [k5, k6, Plan.result, Plan.before, Plan.after]; omega
    · intro y hy
      rw [g5 y (by rintro rfl; exact hxn hy) (hvf y hy)]; exact k7 y hy
    · intro j s hj
      cases j with
      | zero => simp [Plan.detached] at hj; rw [← k10, Nat.add_zero, g4, ← hj]; rfl
      | succ j => simp [Plan.detached] at hj
    · intro z h1 h2 h4
      rw [g5 z h1 (by rintro rfl; exact h4 ⟨by rw [k10]; exact Nat.le_refl _, by rw [hf]; exact Nat.lt_succ_self _⟩)]
      exact k8 z h1 h2
    · rw [g6, k9]; rfl
    · rw [hf, k10]; simp [Plan.detached]

end Proof

/-! ### The whole loop -/

/-- The child list that the loop leaves behind; `i` is the number of the first child. -/
def planResults (plan : Nat → Plan α) (τ : Var → RTree α) (i : Nat) (us : List (RTree α)) : List (RTree α) :=
  (us.zipIdx i).flatMap fun u => (plan u.2).result τ u.1
/-- All variables named. -/
def planVars (plan : Nat → Plan α) (i : Nat) (us : List (RTree α)) : List Var :=
  (us.zipIdx i).flatMap fun u => (plan u.2).vars
/-- All trees detached. -/
def planDetached (plan : Nat → Plan α) (i : Nat) (us : List (RTree α)) : List (RTree α) :=
  (us.zipIdx i).flatMap fun u => (plan u.2).detached u.1
/-- All data values overwritten. -/
def planOverwritten (plan : Nat → Plan α) (i : Nat) (us : List (RTree α)) : List α :=
  (us.zipIdx i).flatMap fun u => (plan u.2).overwritten u.1

namespace Proof

theorem loop_ok (τ : Var → RTree α) (plan : Nat → Plan α) {x : Var} {q : Path} {n : Addr} {v : Val α} {us0 : List (RTree α)}
    (hv : v.isIter = false) (hq : kidsAt v.kids q = some us0) :
    ∀ (us : List (RTree α)) (i : Nat) {m : Machine α} {a cs : List Addr} {l : List (RTree α)} {it : RawIter},
    Reachable m → m.view x = some (v.withKids q (l ++ us)) → IterCur m x q n (a ++ cs) → a.length = l.length →
    cs.length = us.length → it.len = cs.length → (cs ≠ [] → it.curr = cs.head?) →
    (planVars plan i us).Nodup → x ∉ planVars plan i us → (∀ y ∈ planVars plan i us, m.view y = some (.tree (τ y))) →
    ∃ m', Machine.iterMutLoop plan (it.len + 1) i it m = some (m', cs) ∧ Reachable m' ∧
      m'.view x = some (v.withKids q (l ++ planResults plan τ i us)) ∧ (∃ A, IterCur m' x q n A) ∧
      (∀ y ∈ planVars plan i us, m'.view y = none) ∧
      (∀ j s, (planDetached plan i us)[j]? = some s → m'.view (m.fresh + j) = some (.tree s)) ∧
      (∀ z, z ≠ x → z ∉ planVars plan i us → ¬ (m.fresh ≤ z ∧ z < m'.fresh) → m'.view z = m.view z) ∧
      m'.store.dropped = m.store.dropped ++ planOverwritten plan i us ∧
      m'.fresh = m.fresh + (planDetached plan i us).length := by
  intro us
  induction us with
  | nil =>
    intro i m a cs l it hr hx hc hl hlen hit1 hit2 _ _ _
    obtain rfl : cs = [] := by simpa using hlen
    obtain ⟨K, M⟩ := reachable_minv hr
    obtain ⟨hd, h1, h2, h3, h4⟩ := hc.inv M
    have hA := RawIter.at_suffix M.inv h3 h4 hit1 hit2
    refine ⟨m, ?_, hr, by simpa [planResults] using hx, ⟨_, hc⟩, by simp [planVars], by simp [planDetached],
      fun _ _ _ _ => rfl, by simp [planOverwritten], by simp [planDetached]⟩
    simp [Machine.iterMutLoop, hA.next_nil]
  | cons u us ih =>
    intro i m a cs l it hr hx hc hl hlen hit1 hit2 hnd hxn hτ
    cases cs with
    | nil => simp at hlen
    | cons c cs =>
      obtain ⟨K, M⟩ := reachable_minv hr
      obtain ⟨hd, h1, h2, h3, h4⟩ := hc.inv M
      have hA := RawIter.at_suffix M.inv h3 h4 hit1 hit2
      obtain ⟨it', e1, hA'⟩ := hA.next_cons
      have hvs : planVars plan i (u :: us) = (plan i).vars ++ planVars plan (i+1) us := by simp [planVars]
      have hds : planDetached plan i (u :: us) = (plan i).detached u ++ planDetached plan (i+1) us := by simp [planDetached]
      have hos : planOverwritten plan i (u :: us) = (plan i).overwritten u ++ planOverwritten plan (i+1) us := by
        simp [planOverwritten]
      have hrs : planResults plan τ i (u :: us) = (plan i).result τ u ++ planResults plan τ (i+1) us := by simp [planResults]
      rw [hvs] at hnd hxn hτ ⊢
      rw [List.nodup_append] at hnd
      obtain ⟨n1, n2, n3⟩ := hnd
      obtain ⟨m1, a1, k1, k2, k3, k4, k5, k6, k7, k8, k9, k10⟩ := body_ok τ hv hq (plan i) hr hx hc hl n1
        (fun h => hxn (by simp [h])) (fun y hy => hτ y (by simp [hy]))
      obtain ⟨m2, j1, j2, j3, j4, j5, j6, j7, j8, j9⟩ := ih (i + 1) k2 k3 k4 k5 (by simpa using hlen) hA'.1 hA'.2.1 n2
        (fun h => hxn (by simp [h])) (by
          intro y hy
          have hyx : y ≠ x := by rintro rfl; exact hxn (by simp [hy])
          have hyv : y ∉ (plan i).vars := fun h => n3 y h y hy rfl
          have hyv' := hτ y (by simp [hy])
          have hlt : y < m.fresh := fresh_lt_of_view hr hyv'
          rw [k8 y hyx hyv (fun h => absurd h.1 (Nat.not_le.mpr hlt))]
          exact hyv')
      have hlen' : it.len = it'.len + 1 := by rw [hit1, hA'.1]; rfl
      refine ⟨m2, ?_, j2, ?_, j4, ?_, ?_, ?_, ?_, ?_⟩
      · rw [hlen', Machine.iterMutLoop, e1]
        simp only [k1, j1]
      · rw [j3, hrs]; simp
      · intro y hy
        by_cases hyl : y ∈ planVars plan (i+1) us
        · exact j5 y hyl
        · have hym : y ∈ (plan i).vars := by simpa [hyl] using hy
          have hyx : y ≠ x := by rintro rfl; exact hxn (by simp [hym])
          have hlt : y < m.fresh := fresh_lt_of_view hr (hτ y hy)
          rw [j7 y hyx hyl (fun h => absurd h.1 (by rw [k10]; exact Nat.not_le.mpr (Nat.lt_add_right _ hlt)))]
          exact k6 y hym
      · intro j s hj
        rw [hds] at hj
        by_cases hjl : j < ((plan i).detached u).length
        · rw [List.getElem?_append_left hjl] at hj
          have hk := k7 j s hj
          have hlt : ∀ y w, m.view y = some w → m.fresh + j ≠ y := fun y w h e =>
            absurd (fresh_lt_of_view hr h) (by rw [← e]; exact Nat.not_lt.mpr (Nat.le_add_right _ _))
          rw [j7 (m.fresh + j) (hlt x _ hx) (fun h => hlt _ _ (hτ (m.fresh + j) (by simp [h])) rfl)]
          · exact hk
          · rw [k10]; intro h; exact absurd h.1 (Nat.not_le.mpr (Nat.add_lt_add_left hjl _))
        · rw [List.getElem?_append_right (Nat.not_lt.mp hjl)] at hj
          have := j6 _ s hj
          rw [k10] at this
          rw [← this, Nat.add_assoc, Nat.add_sub_cancel' (Nat.not_lt.mp hjl)]
      · intro z hz1 hz2 hz3
        have hz2' : z ∉ (plan i).vars ∧ z ∉ planVars plan (i+1) us := by simpa using hz2
        have e1 : m.fresh ≤ m1.fresh := by rw [k10]; exact Nat.le_add_right _ _
        have e2 : m1.fresh ≤ m2.fresh := by rw [j9]; exact Nat.le_add_right _ _
        rw [j7 z hz1 hz2'.2 (fun h => hz3 ⟨Nat.le_trans e1 h.1, h.2⟩),
          k8 z hz1 hz2'.1 (fun h => hz3 ⟨h.1, Nat.lt_of_lt_of_le h.2 e2⟩)]
      · rw [j8, k9, hos]; simp
      · rw [j9, k10, hds]; simp [Nat.add_assoc]

end Proof

/-- **C09** A loop over `iter_mut()` of any node whose body inserts siblings before and after the child it stands on,
overwrites its data and possibly detaches it visits exactly the children the node had when the loop started, each once
and in order, whatever the body does; it never fails; the child list afterwards is the concatenation, child by child,
of the trees inserted before it, the child itself with its last value unless detached, and the trees inserted after it;
each detached child is an independent tree in a fresh variable, the inserted trees are gone from their variables, the
overwritten values and nothing else are dropped, and nothing else changes. -/
theorem c09_iterMut {m : Machine α} (hr : Reachable m) {x : Var} {q : Path} {v : Val α} {us : List (RTree α)}
    (hx : m.view x = some v) (hv : v.isIter = false) (hq : kidsAt v.kids q = some us) (plan : Nat → Plan α)
    (τ : Var → RTree α) (hnd : (planVars plan 0 us).Nodup) (hxn : x ∉ planVars plan 0 us)
    (hτ : ∀ y ∈ planVars plan 0 us, m.view y = some (.tree (τ y))) :
    ∃ n m' cs, m.nodeAt x q = some n ∧ m.iterMut n plan = some (m', cs) ∧ Reachable m' ∧
      cs.length = us.length ∧ (∀ i, i < us.length → cs[i]? = m.nodeAt x (q ++ [i])) ∧
      m'.nodeAt x q = some n ∧
      m'.view x = some (v.setKids (modKids v.kids q (fun _ => planResults plan τ 0 us))) ∧
      (∀ y ∈ planVars plan 0 us, m'.view y = none) ∧
      (∀ j s, (planDetached plan 0 us)[j]? = some s → m'.view (m.fresh + j) = some (.tree s)) ∧
      (∀ z, z ≠ x → z ∉ planVars plan 0 us → ¬ (m.fresh ≤ z ∧ z < m.fresh + (planDetached plan 0 us).length) →
        m'.view z = m.view z) ∧
      m'.store.dropped = m.store.dropped ++ planOverwritten plan 0 us := by
  obtain ⟨K, M⟩ := Proof.reachable_minv hr
  obtain ⟨hd, n, h1, A⟩ := Proof.nodeAt_at M hx hq
  have hn := A.used M
  obtain ⟨it, e1, hA⟩ := iter_at M.inv hn
  have hlen : (K n).length = us.length := A.kden.length
  have hc : IterCur m x q n ([] ++ K n) := ⟨h1, children_ok M.inv hn⟩
  obtain ⟨m', j1, j2, j3, j4, j5, j6, j7, j8, j9⟩ := Proof.loop_ok τ plan hv hq us 0 (l := []) hr
    (by rw [List.nil_append, Val.withKids_self hq]; exact hx) hc rfl hlen hA.1 hA.2.1 hnd hxn hτ
  refine ⟨n, m', K n, h1, ?_, j2, hlen, ?_, ?_, j3, j5, j6, ?_, j8⟩
  · simp only [Machine.iterMut, e1, j1]
  · intro i hi
    have hres : resolve K hd.addr (q ++ [i]) = (K n)[i]? := by
      rw [resolve_append, A.res]
      simp only [resolve, Option.bind_some]
      cases (K n)[i]? <;> rfl
    simp only [Machine.nodeAt, A.env, locate_ok M.inv (M.hnd x hd A.env).used, hres]
  · obtain ⟨A', hA'⟩ := j4; exact hA'.1
  · rw [← j9]; exact j7

/-! ### The hypotheses of `c09_iterMut` are satisfiable -/

def demo9Ops : List (Op Nat) := demo2Ops ++ [.treeNew 8, .treeNew 9]
def demo9 : Machine Nat := (exec step Machine.empty demo9Ops).1
theorem demo9_reachable : Reachable demo9 := exec_reachable _
theorem demo9_store : demo9.store = (exec specStep Store.empty demo9Ops).1 := (c10_programs demo9Ops).2
theorem demo9_view (x : Var) : demo9.view x = (exec specStep Store.empty demo9Ops).1.vars x :=
  congrArg (fun s => s.vars x) demo9_store

/-- On `0(1(5) 2)`: detach the first child after inserting `8` before it, insert `9` after the second and overwrite it. -/
example : ∃ n m' cs, demo9.nodeAt 0 [] = some n ∧
    demo9.iterMut n (fun i => if i = 0 then ⟨[.insPrev 9], true⟩ else ⟨[.set 12, .insNext 10], false⟩) = some (m', cs) ∧
    cs.length = 2 ∧ m'.view 0 = some (.tree (.node 0 [.node 8 [], .node 12 [], .node 9 []])) ∧
    m'.view demo9.fresh = some (.tree (.node 1 [.node 5 []])) ∧ m'.view 9 = none ∧
    m'.store.dropped = [2] := by
  obtain ⟨n, m', cs, h1, h2, h3, h4, h5, h6, h7, h8, h9, h10, h11⟩ := c09_iterMut demo9_reachable (x := 0) (q := [])
    (v := .tree (.node 0 [.node 1 [.node 5 []], .node 2 []])) (us := [.node 1 [.node 5 []], .node 2 []]) (demo9_view 0) rfl rfl
    (fun i => if i = 0 then ⟨[.insPrev 9], true⟩ else ⟨[.set 12, .insNext 10], false⟩)
    (fun y => if y = 9 then .node 8 [] else .node 9 [])
    (by decide) (by decide) (by
      intro y hy
      have : y = 9 ∨ y = 10 := by simpa [planVars, Plan.vars] using hy
      rcases this with rfl | rfl
      · exact demo9_view 9
      · exact demo9_view 10)
  refine ⟨n, m', cs, h1, h2, h4, h7, h9 0 _ rfl, h8 9 (by decide), h11.trans ?_⟩
  rw [demo9_store]; rfl

end Trees
