import Verif.Proof.WalkLive
import Verif.Props.Live
import Verif.Props.Walk
/-
C71: walks that are kept while the program goes on calling.
-/
namespace Trees
set_option linter.unusedSimpArgs false
set_option linter.unusedVariables false
variable {α : Type}
open RTree

/-- States of programs that keep walks. -/
inductive WReachable : WMachine α → Prop
  | init : WReachable .empty
  | step {W op} : WReachable W → WReachable (wstep W op).1

namespace Proof

theorem wok_empty : WOK (WMachine.empty : WMachine α) .empty :=
  ⟨.init, rfl, rfl, fun i => .none, fun i _ => rfl⟩

theorem wreach_ok {W : WMachine α} (hr : WReachable W) : ∃ S, WOK W S := by
  induction hr with
  | init => exact ⟨_, wok_empty⟩
  | @step W op _ ih =>
    obtain ⟨S, H⟩ := ih
    exact ⟨_, (wsim H op).1⟩

theorem wsim_run : ∀ (ops : List (WOp α)) {W : WMachine α} {S : WStore α}, WOK W S →
    WOK (runCalls wstep W ops).1 (runCalls wspec S ops).1 ∧ (runCalls wstep W ops).2 = (runCalls wspec S ops).2
  | [], W, S, H => ⟨H, rfl⟩
  | op :: ops, W, S, H => by
    obtain ⟨h1, h2, -, -⟩ := wsim H op
    obtain ⟨h3, h4⟩ := wsim_run ops h1
    simp only [runCalls]
    exact ⟨h3, by rw [h2, h4]⟩

end Proof

/-- **C71** (whole programs).  Every program that keeps any number of walks while it makes other calls sees what the specification
says, in which every walk is a cursor over the trees that were moved into it. -/
theorem c71_program (ops : List (WOp α)) :
    (runCalls wstep .empty ops).2 = (runCalls wspec .empty ops).2 ∧
    (runCalls wstep .empty ops).1.m.view = (runCalls wspec .empty ops).1.store.vars ∧
    (runCalls wstep .empty ops).1.m.heap.log = (runCalls wspec .empty ops).1.store.dropped := by
  obtain ⟨H, h⟩ := Proof.wsim_run ops Proof.wok_empty
  refine ⟨h, ?_, ?_⟩
  · rw [H.store]; rfl
  · rw [H.store]; rfl

/-- **C71** (the tree stays): while a value is in a walk, no call changes it: neither an item nor the place of a node. -/
theorem c71_still {W : WMachine α} (hr : WReachable W) {i : Nat} {x : Var} {w : Walk} (h : W.walks i = some (x, w)) (op : WOp α) :
    (wstep W op).1.m.lview x = W.m.lview x := by
  obtain ⟨S, H⟩ := Proof.wreach_ok hr
  by_cases hc : ∃ c, op = .call c
  · obtain ⟨op, rfl⟩ := hc
    obtain ⟨v, us, hv, -⟩ := H.live_var h
    obtain ⟨K, M⟩ := Proof.reachable_minv H.reach
    have hf : x < W.m.fresh := by
      refine Nat.lt_of_not_le fun hf => ?_
      rw [Machine.lview, M.fr x hf] at hv; cases hv
    simp only [wstep]
    cases hcl : wclash W.walks W.made (.call op) with
    | true => rfl
    | false =>
      simp only [Bool.false_eq_true, if_false]
      have hx : x ∉ op.writes := by
        intro hm
        simp only [wclash] at hcl
        rw [List.any_eq_false] at hcl
        refine hcl x (List.mem_append_left _ hm) ?_
        simp only [borrowed, List.any_eq_true, List.mem_range]
        exact ⟨i, H.lt h, by simp [h]⟩
      simp only [wexec]
      cases hs : step W.m op with
      | ok m' o => exact (writes_frame H.reach hx hf).1 o hs
      | panic m' => exact (writes_frame H.reach hx hf).2 hs
      | rejected => rfl
      | bad => rfl
  · rw [(wsim H op).2.2.1 fun c e => hc ⟨c, e⟩]

/-- The methods of walk number `i` that a program calls, and their results. -/
def actsOf (i : Nat) : List (WOp α) → List WalkOp
  | .act j op :: ops => if j = i then op :: actsOf i ops else actsOf i ops
  | _ :: ops => actsOf i ops
  | [] => []

def resultsOf (i : Nat) : List (WOp α) → List (WOut α) → List (WOut α)
  | .act j _ :: ops, o :: os => if j = i then o :: resultsOf i ops os else resultsOf i ops os
  | _ :: ops, _ :: os => resultsOf i ops os
  | _, _ => []

namespace Proof

/-- Calls that do not concern walk number `i` leave it as it is. -/
theorem keep_walk {S : WStore α} {i : Nat} (hi : i < S.made) {op : WOp α} (h1 : ∀ a, op ≠ .act i a) (h2 : op ≠ .unwalk i) :
    (wspec S op).1.walks i = S.walks i ∧ S.made ≤ (wspec S op).1.made := by
  have hne : i ≠ S.made := Nat.ne_of_lt hi
  simp only [wspec]
  split
  · simp
  cases op with
  | act j a =>
    have hj : i ≠ j := fun e => h1 a (by rw [e])
    simp only [wdo]
    repeat' split
    all_goals simp [WStore.put, hj, hne]
  | unwalk j =>
    have hj : i ≠ j := fun e => h2 (by rw [e])
    simp only [wdo]
    repeat' split
    all_goals simp [WStore.put, hj]
  | walk x =>
    simp only [wdo]
    repeat' split
    all_goals simp [WStore.put, hne]
  | call op =>
    simp only [wdo]
    repeat' split
    all_goals simp

theorem acts_spec (i : Nat) : ∀ (ops : List (WOp α)) {S : WStore α} {x : Var} {ts : List (RTree α)} {c : Cur}, i < S.made →
    S.walks i = some (x, ts, c) → (.unwalk i) ∉ ops →
    resultsOf i ops (runCalls wspec S ops).2 = (c.calls ts (actsOf i ops)).1.map (seen ts) := by
  intro ops
  induction ops with
  | nil => intros; rfl
  | cons op ops ih =>
    intro S x ts c hi hr hn
    simp only [List.mem_cons, not_or] at hn
    by_cases hop : ∃ a, op = .act i a
    · obtain ⟨a, rfl⟩ := hop
      have e : wspec S (.act i a) = (S.put i (some (x, ts, (c.call ts a).2)), seen ts (c.call ts a).1) := by
        simp only [wspec, wclash, wdo, hr]; rfl
      simp only [runCalls, e, resultsOf, actsOf, if_true, Cur.calls, List.map_cons]
      congr 1
      exact ih (S := S.put i (some (x, ts, (c.call ts a).2))) (x := x) hi (by simp [WStore.put]) hn.2
    · obtain ⟨h1, h2⟩ := keep_walk hi (fun a e => hop ⟨a, e⟩) (Ne.symm hn.1)
      have e : resultsOf i (op :: ops) (runCalls wspec S (op :: ops)).2 = resultsOf i ops (runCalls wspec (wspec S op).1 ops).2 ∧
          actsOf i (op :: ops) = actsOf i ops := by
        simp only [runCalls]
        cases op with
        | act j a =>
          have hj : ¬ j = i := fun e => hop ⟨a, by rw [e]⟩
          simp only [resultsOf, actsOf]
          rw [if_neg hj, if_neg hj]; exact ⟨rfl, rfl⟩
        | _ => exact ⟨rfl, rfl⟩
      rw [e.1, e.2]
      exact ih (Nat.lt_of_lt_of_le hi h2) (h1.trans hr) hn.2

theorem holds_var {m : Machine α} {b : Option (Var × Walk)} {s : Option (Var × List (RTree α) × Cur)} (h : WHolds m b s) {x : Var}
    {y : List (RTree α) × Cur} (e : s = some (x, y)) : ∃ w, b = some (x, w) := by
  cases h with
  | none => cases e
  | some => simp only [Option.some.injEq, Prod.mk.injEq] at e; obtain ⟨rfl, -⟩ := e; exact ⟨_, rfl⟩

/-- A new walk. -/
theorem new_walk {W W' : WMachine α} (hr : WReachable W) {x : Var} {i : Nat} (h : wstep W (.walk x) = (W', .new i)) :
    ∃ S v ts, WOK W' S ∧ W.m.view x = some v ∧ v.walked = some ts ∧ i < S.made ∧ S.walks i = some (x, ts, Cur.start ts) ∧
      W'.m = W.m ∧ ∃ w, W'.walks i = some (x, w) := by
  obtain ⟨S, H⟩ := wreach_ok hr
  obtain ⟨H', e, hm, -⟩ := wsim H (.walk x)
  rw [h] at H' e hm
  replace hm := hm (by intro c e; cases e)
  dsimp only at H' e hm
  have hcl : wclash S.walks S.made (.walk x : WOp α) = false := by
    simp only [wspec] at e
    split at e
    · cases e
    · rename_i h; simpa using h
  simp only [wspec, hcl, Bool.false_eq_true, if_false, wdo] at e H'
  cases hx : S.store.vars x with
  | none => rw [hx] at e; simp at e
  | some v =>
    rw [hx] at e H'
    simp only [Option.bind_some] at e H'
    cases hv : v.walked with
    | none => rw [hv] at e; simp at e
    | some ts =>
      rw [hv] at e H'
      simp only [WOut.new.injEq] at e
      subst e
      have hS : ((S.put S.made (some (x, ts, Cur.start ts))).walks S.made) = some (x, ts, Cur.start ts) := by simp [WStore.put]
      refine ⟨_, v, ts, H', by rw [← hx, H.store]; rfl, hv, by simp, hS, hm, ?_⟩
      have := H'.ref S.made
      simp only [hS] at this
      revert this
      generalize W'.walks S.made = b
      intro this
      cases this; exact ⟨_, rfl⟩

end Proof

/-- **C71** (independence).  Whatever a program does between the calls on a walk, and with other walks, the walk shows what a cursor over the
trees moved into it shows that has only seen the calls on it. -/
theorem c71_independent {W W' : WMachine α} (hr : WReachable W) {x : Var} {i : Nat} (h : wstep W (.walk x) = (W', .new i)) :
    ∃ v ts, W.m.view x = some v ∧ v.walked = some ts ∧ ∀ ops, .unwalk i ∉ ops →
      resultsOf i ops (runCalls wstep W' ops).2 = ((Cur.start ts).calls ts (actsOf i ops)).1.map (seen ts) := by
  obtain ⟨S, v, ts, H, h1, h2, h3, h4, -⟩ := Proof.new_walk hr h
  refine ⟨v, ts, h1, h2, fun ops hn => ?_⟩
  rw [(Proof.wsim_run ops H).2]
  exact Proof.acts_spec i ops h3 h4 hn

/-- **C71** (the tour).  If the program only calls `next` on a walk, and anything else on anything else between, the walk shows the Euler tour
of the trees moved into it. -/
theorem c71_tour {W W' : WMachine α} (hr : WReachable W) {x : Var} {i : Nat} (h : wstep W (.walk x) = (W', .new i)) :
    ∃ v ts, W.m.view x = some v ∧ v.walked = some ts ∧ ∀ ops, .unwalk i ∉ ops → (∀ a ∈ actsOf i ops, a = .next) →
      resultsOf i ops (runCalls wstep W' ops).2 =
        (List.range (actsOf i ops).length).map fun k => seen ts (.visit (eulerTour ts)[k + 1]?) := by
  obtain ⟨v, ts, h1, h2, h3⟩ := c71_independent hr h
  refine ⟨v, ts, h1, h2, fun ops hn ha => ?_⟩
  rw [h3 ops hn, List.eq_replicate_of_mem ha, List.length_replicate]
  generalize (actsOf i ops).length = n
  have key : ∀ n k, ((Proof.curOf (eulerTour ts)[k]?).calls ts (List.replicate n .next)).1 =
      (List.range n).map fun j => .visit (eulerTour ts)[k + j + 1]? := by
    intro n
    induction n with
    | zero => intro k; rfl
    | succ n ih =>
      intro k
      have e : (Proof.curOf (eulerTour ts)[k]?).call ts .next = (.visit (eulerTour ts)[k + 1]?, Proof.curOf (eulerTour ts)[k + 1]?) := by
        cases h : (eulerTour ts)[k]? with
        | none =>
          have : (eulerTour ts)[k+1]? = none := by simp at h ⊢; omega
          rw [this]; rfl
        | some y =>
          have := Cur.forward_tour ts k y.1 y.2 h
          simp only [Proof.curOf, Cur.call, this]
          cases (eulerTour ts)[k+1]? <;> rfl
      rw [List.replicate_succ, Cur.calls, e, List.range_succ_eq_map, List.map_cons, List.map_map]
      dsimp only
      rw [ih (k + 1)]
      simp only [Nat.add_zero, Function.comp_def]
      congr 1
      refine List.map_congr_left fun j _ => ?_
      rw [show k + 1 + j + 1 = k + (j + 1) + 1 by omega]
  have h0 : Cur.start ts = Proof.curOf (eulerTour ts)[0]? := by
    rw [Cur.start_tour]; cases (eulerTour ts)[0]? <;> rfl
  rw [h0, key n 0, List.map_map]
  simp [Function.comp_def]

/-- **C71** (the value comes back).  When the walk is turned back, its variable has the value that was moved into the walk, at the same
addresses, whatever was done meanwhile. -/
theorem c71_back {W W' : WMachine α} (hr : WReachable W) {x : Var} {i : Nat} (h : wstep W (.walk x) = (W', .new i)) (ops : List (WOp α))
    (hn : .unwalk i ∉ ops) :
    (wstep (runCalls wstep W' ops).1 (.unwalk i)).2 = .unit ∧
    (wstep (runCalls wstep W' ops).1 (.unwalk i)).1.m.lview x = W.m.lview x ∧
    (wstep (runCalls wstep W' ops).1 (.unwalk i)).1.m.view x = W.m.view x := by
  obtain ⟨S, v, ts, H, h1, h2, h3, h4, hm, w, hw⟩ := Proof.new_walk hr h
  have hr' : WReachable W' := by
    have := WReachable.step (op := .walk x) hr
    rw [h] at this; exact this
  have keep : ∀ (ops : List (WOp α)) {W1 : WMachine α} {S1 : WStore α} {w : Walk}, WReachable W1 → WOK W1 S1 → .unwalk i ∉ ops → W1.walks i = some (x, w) →
      ∃ w', WReachable (runCalls wstep W1 ops).1 ∧ (runCalls wstep W1 ops).1.walks i = some (x, w') ∧ (runCalls wstep W1 ops).1.m.lview x = W1.m.lview x := by
    intro ops
    induction ops with
    | nil => intro W1 S1 w g1 _ _ g2; exact ⟨w, g1, g2, rfl⟩
    | cons op ops ih =>
      intro W1 S1 w g1 G g3 g2
      simp only [List.mem_cons, not_or] at g3
      have k : ∃ w', (wstep W1 op).1.walks i = some (x, w') := by
        have hS := G.ref i
        rw [g2] at hS
        revert hS
        generalize hS1 : S1.walks i = s
        intro hS
        cases hS with
        | @some _ v us _ c q1 q2 q3 =>
          have hlt : i < S1.made := by rw [G.made]; exact G.lt g2
          have hk : ∃ c', (wspec S1 op).1.walks i = some (x, mapL Prod.snd us, c') := by
            by_cases hop : ∃ a, op = .act i a
            · obtain ⟨a, rfl⟩ := hop
              refine ⟨(c.call (mapL Prod.snd us) a).2, ?_⟩
              simp [wspec, wclash, wdo, hS1, WStore.put]
            · rw [(Proof.keep_walk hlt (fun a e => hop ⟨a, e⟩) (Ne.symm g3.1)).1]
              exact ⟨_, hS1⟩
          obtain ⟨c', hk⟩ := hk
          exact Proof.holds_var ((wsim G op).1.ref i) hk
      obtain ⟨w', k⟩ := k
      obtain ⟨w2, r1, r2, r3⟩ := ih (.step (op := op) g1) (wsim G op).1 g3.2 k
      simp only [runCalls]
      exact ⟨w2, r1, r2, r3.trans (c71_still g1 g2 op)⟩
  obtain ⟨w', k1, k2, k3⟩ := keep ops hr' H hn hw
  have k4 : (wstep (runCalls wstep W' ops).1 (.unwalk i)).2 = .unit := by
    simp only [wstep, wclash, wexec, k2]; rfl
  have k5 : (wstep (runCalls wstep W' ops).1 (.unwalk i)).1.m.lview x = W.m.lview x := by
    rw [c71_still k1 k2, k3, hm]
  refine ⟨k4, k5, ?_⟩
  obtain ⟨S0, H0⟩ := Proof.wreach_ok hr
  obtain ⟨S2, H2⟩ := Proof.wreach_ok (.step (op := .unwalk i) k1)
  rw [← c48_view H0.reach, ← c48_view H2.reach, k5]

/-- **C71** (nothing undefined): nothing that such a program does reads or writes memory that is not a node. -/
theorem c71_safe {W : WMachine α} (hr : WReachable W) (op : WOp α) : (wstep W op).2 ≠ .bad := by
  obtain ⟨S, H⟩ := Proof.wreach_ok hr
  exact (wsim H op).2.2.2

/-! ### A concrete case -/

/-- A forest of the trees `0( 1( 2 ) )` and `3`, and the tree `4( 5 )`; two walks, one call on the one and one on the other by turns,
while another tree is made and dropped, and a call on the forest is refused; then the forest is turned back and changed. -/
def walkOps : List (WOp Nat) :=
  [.call .forestNew, .call (.treeNew 0), .call (.treeNew 1), .call (.treeNew 2), .call (.pushBack 2 [] 3), .call (.pushBack 1 [] 2),
   .call (.pushBack 0 [] 1), .call (.treeNew 3), .call (.pushBack 0 [] 4), .call (.treeNew 4), .call (.treeNew 5), .call (.pushBack 5 [] 6),
   .walk 0, .walk 5, .act 0 .get, .act 1 .next, .act 0 .next, .call (.treeNew 7), .act 1 .next, .call (.drop 7), .act 0 .next,
   .call (.popFront 0 []), .act 1 .next, .act 0 .getParent, .act 0 .toParent, .act 0 (.toSib 1), .act 0 .next, .act 0 .revisit,
   .act 0 (.toChild 0), .act 0 (.toChild 7), .act 0 .get, .unwalk 0, .act 0 .get, .call (.popFront 0 [])]

theorem walk_outs : ((runCalls wstep .empty walkOps).2.drop 12) =
    [.new 0, .new 1, .visit (some (.begin, 0, 1, 3)), .visit (some (.leaf, 5, 0, 1)), .visit (some (.begin, 1, 1, 2)), .ok (.var 7),
     .visit (some (.stop, 4, 1, 2)), .ok .unit, .visit (some (.leaf, 2, 0, 1)), .rejected, .visit none, .node (some (1, 1, 2)),
     .visit (some (.stop, 1, 1, 2)), .visit none, .visit (some (.stop, 0, 1, 3)), .unit, .visit (some (.begin, 1, 1, 2)), .visit none,
     .panic, .unit, .rejected, .ok (.var 8)] := by
  rw [(c71_program walkOps).1]
  rfl

end Trees
