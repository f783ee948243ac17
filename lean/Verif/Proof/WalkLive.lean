import Verif.Model.WalkLive
import Verif.Proof.Live
import Verif.Proof.Walk
/-
A kept walk depends only on the nodes of the value that was moved into it.
-/
namespace Trees
set_option linter.unusedSimpArgs false
set_option linter.unusedVariables false
variable {α β : Type}
open RTree Walk

section
variable {h : Heap α} {K K' : Addr → List Addr} {R : List Addr} {us : List (RTree (Addr × α))}

theorem look_lab (D : DenL h.lab K R us) : ∀ (q : Pos),
    (look K R q = none ∧ kidsAt us q.reverse = none) ∨
      ∃ l vs, look K R q = some l ∧ kidsAt us q.reverse = some vs ∧ DenL h.lab K l vs ∧ l = vs.map fun u => u.data.1 := by
  intro q
  induction q with
  | nil => exact .inr ⟨R, us, rfl, rfl, D, denL_lab D⟩
  | cons i q ih =>
    simp only [List.reverse_cons, kidsAt_append]
    rcases ih with ⟨h1, h2⟩ | ⟨l, vs, h1, h2, h3, -⟩
    · left; simp [look, h1, h2]
    · rcases h3.get i with ⟨h4, h5⟩ | ⟨c, t, h4, h5, h6⟩
      · left; simp [look, h1, h2, h4, kidsAt, h5]
      · right
        have h7 : DenL h.lab K (K c) t.kids := by cases t; exact h6.2
        exact ⟨K c, t.kids, by simp [look, h1, h4], by simp [h2, kidsAt, h5], h7, denL_lab h7⟩

theorem look_eq (D : DenL h.lab K R us) (q : Pos) : look K R q = (kidsAt us q.reverse).map (List.map fun u => u.data.1) := by
  rcases look_lab D q with ⟨h1, h2⟩ | ⟨l, vs, h1, h2, -, h4⟩
  · rw [h1, h2]; rfl
  · rw [h1, h2, h4]; rfl

/-- The cursor does not notice what happens to other nodes. -/
theorem rel_frame {h' : Heap α} (D : DenL h.lab K R us) (D' : DenL h'.lab K' R us) {w : Walk} {c : Cur} (hr : Rel K R w c) : Rel K' R w c := by
  have e : ∀ q, look K' R q = look K R q := fun q => by rw [look_eq D, look_eq D']
  have en : ∀ p, nodeOf K' R p = nodeOf K R p := by
    intro p; cases p with
    | nil => rfl
    | cons i q => simp only [nodeOf, e]
  have es : ∀ p, stk K' R p = stk K R p := by
    intro p; induction p with
    | nil => rfl
    | cons i q ih => simp only [stk, en, ih]
  obtain ⟨h1, h2⟩ := hr
  refine ⟨h1, ?_⟩
  cases c with
  | done => exact h2
  | «at» k p =>
    obtain ⟨h3, a, h4, h5⟩ := h2
    have hk : K' a = K a := by
      have g1 := look_of_node h4
      have g2 := look_of_node ((en p).trans h4)
      rw [e, g1] at g2
      exact (Option.some.inj g2).symm
    refine ⟨h3.trans (es p).symm, a, (en p).trans h4, ?_⟩
    cases k <;> simp only [hk] <;> exact h5
  | off q d =>
    obtain ⟨⟨l, h3, h4⟩, h5, h6⟩ := h2
    exact ⟨⟨l, (e q).trans h3, h4⟩, by rw [es]; exact h5, h6⟩

/-- The node at a position. -/
theorem nodeAt_lab (hI : Inv h K) (T : Top h R) (D : DenL h.lab K R us) {p : Pos} {a : Addr} (e : nodeOf K R p = some a) :
    ∃ u, RTree.nodeAt? us p = some u ∧ u.data.1 = a ∧ h.Used a ∧ Den h.lab K a u := by
  cases p with
  | nil => cases e
  | cons i q =>
    obtain ⟨l, h1, h2⟩ := node_cases e
    rcases look_lab D q with ⟨g1, -⟩ | ⟨l', vs, g1, g2, g3, g4⟩
    · rw [h1] at g1; cases g1
    · rw [h1] at g1; obtain rfl := Option.some.inj g1
      rcases g3.get i with ⟨k1, -⟩ | ⟨c, t, k1, k2, k3⟩
      · rw [h2] at k1; cases k1
      · rw [h2] at k1; obtain rfl := Option.some.inj k1
        refine ⟨t, by simp [RTree.nodeAt?, g2, k2], ?_, node_used hI T e, k3⟩
        rw [g4, List.getElem?_map, k2] at h2
        exact Option.some.inj h2
end

theorem nodeAt_mapL (f : α → β) (ts : List (RTree α)) (p : Pos) : RTree.nodeAt? (mapL f ts) p = (RTree.nodeAt? ts p).map (RTree.map f) := by
  cases p with
  | nil => rfl
  | cons i q =>
    simp only [RTree.nodeAt?, kidsAt_mapL]
    cases kidsAt ts q.reverse with
    | none => rfl
    | some vs => simp [mapL_eq]

theorem walked_map (f : α → β) (v : Val α) : (v.map f).walked = v.walked.map (mapL f) := by
  cases v <;> rfl

/-- A walk and what it stands for. -/
inductive WHolds (m : Machine α) : Option (Var × Walk) → Option (Var × List (RTree α) × Cur) → Prop
  | none : WHolds m none none
  | some {x v us w c} : m.lview x = some v → v.walked = some us → (∀ K, MInv m K → Rel K (us.map fun u => u.data.1) w c) →
      WHolds m (some (x, w)) (some (x, mapL Prod.snd us, c))

structure WOK (W : WMachine α) (S : WStore α) : Prop where
  reach : Reachable W.m
  store : S.store = W.m.store
  made : S.made = W.made
  ref : ∀ i, WHolds W.m (W.walks i) (S.walks i)
  fresh : ∀ i, W.made ≤ i → W.walks i = none

section
variable {W : WMachine α} {S : WStore α}

theorem WOK.lt (H : WOK W S) {i : Nat} {b : Var × Walk} (h : W.walks i = some b) : i < W.made := by
  refine Nat.lt_of_not_le fun hi => ?_
  rw [H.fresh i hi] at h; cases h

theorem WOK.walked (H : WOK W S) (x : Var) : borrowed W.walks W.made x = borrowed S.walks S.made x := by
  simp only [Trees.borrowed, H.made]
  congr 1
  funext i
  have := H.ref i
  cases h1 : W.walks i <;> cases h2 : S.walks i <;> rw [h1, h2] at this <;> cases this <;> rfl

theorem WOK.clash (H : WOK W S) (op : WOp α) : wclash W.walks W.made op = wclash S.walks S.made op := by
  have h1 : Trees.borrowed W.walks W.made = Trees.borrowed S.walks S.made := funext H.walked
  cases op <;> simp only [wclash, h1]

theorem WOK.put (H : WOK W S) {i : Nat} (hi : i < W.made) {b : Option (Var × Walk)} {s : Option (Var × List (RTree α) × Cur)}
    (h : WHolds W.m b s) : WOK (W.put i b) (S.put i s) := by
  refine ⟨H.reach, H.store, H.made, fun j => ?_, fun j hj => ?_⟩
  · simp only [WMachine.put, WStore.put]
    by_cases e : j = i
    · simpa [e] using h
    · simpa [e] using H.ref j
  · simp only [WMachine.put] at hj ⊢
    rw [if_neg (by omega)]
    exact H.fresh j hj

theorem WOK.live_var (H : WOK W S) {i : Nat} {x : Var} {w : Walk} (h : W.walks i = some (x, w)) :
    ∃ v us, W.m.lview x = some v ∧ v.walked = some us := by
  have := H.ref i
  rw [h] at this
  revert this
  generalize S.walks i = s
  intro this
  cases this; exact ⟨_, _, by assumption, by assumption⟩

/-- What the code of the walk needs to know. -/
theorem walked_lab {m : Machine α} {K : Addr → List Addr} (M : MInv m K) {x : Var} {v : Val (Addr × α)} {us : List (RTree (Addr × α))}
    (hx : m.lview x = some v) (hu : v.walked = some us) :
    DenL m.heap.lab K (us.map fun u => u.data.1) us ∧ Top m.heap (us.map fun u => u.data.1) ∧
    ∃ hd c w, m.env x = some hd ∧ hd.startWalk = some c ∧ c m.heap = .ok w m.heap ∧
      Rel K (us.map fun u => u.data.1) w (Cur.start (mapL Prod.snd us)) := by
  obtain ⟨hd, e, ho, hv⟩ := M.lview_some hx
  cases v with
  | iter ts => cases hu
  | tree t =>
    obtain rfl : [t] = us := by simpa [Val.walked] using hu
    cases hd with
    | forest r => exact hv.elim
    | iter r => exact hv.elim
    | tree r =>
      have hr : r = t.data.1 := by
        have := (at_lab M ho hv (l := .root) (u := t) rfl).2.2
        simpa only [Loc.full, resolve, Handle.addr, Option.some.injEq] using this
      have D : DenL m.heap.lab K [r] [t] := by
        simp only [HDenV] at hv
        simpa using hv
      obtain ⟨w, h1, h2, h3⟩ := fromTree_ok M.inv ho.used ho.root D.plain
      simp only [Handle.addr] at h1 h2 h3
      have hR : [r] = [t].map fun u => u.data.1 := by simp [hr]
      refine ⟨?_, ?_, _, _, w, e, rfl, h1, ?_⟩
      · rw [← hR]; exact D
      · rw [← hR]; exact h2
      · rw [← hR]; exact h3
  | forest ts =>
    obtain rfl : ts = us := by simpa [Val.walked] using hu
    cases hd with
    | tree r => exact hv.elim
    | iter r => exact hv.elim
    | forest f =>
      have D : DenL m.heap.lab K (K f) ts := hv
      obtain ⟨w, h1, h2, h3⟩ := fromForest_ok M.inv ho.used D.plain
      have hR : K f = ts.map fun u => u.data.1 := denL_lab D
      simp only [Handle.addr] at h1 h2 h3
      rw [hR] at D h2 h3
      exact ⟨D, h2, _, _, w, e, rfl, h1, h3⟩

/-- A method of a walk. -/
theorem act_callC (W : WMachine α) {i : Nat} {x : Var} {w w' : Walk} {o : WalkOut Addr} {op : WalkOp} (hw : W.walks i = some (x, w))
    (e : callC op (W.m.heap, w) = .ok o (W.m.heap, w')) : wexec W (.act i op) = (W.put i (some (x, w'))).see o := by
  simp only [callC] at e
  simp only [wexec, hw]
  cases hc : call op (W.m.heap, w) with
  | ok b s1 =>
    rw [hc] at e
    simp only [Res.ok.injEq] at e
    obtain ⟨rfl, rfl⟩ := e
    rfl
  | err b s1 =>
    rw [hc] at e
    cases b with
    | panic =>
      simp only [Res.ok.injEq] at e
      obtain ⟨rfl, rfl⟩ := e
      rfl
    | _ => cases e

/-- Looking at a node that a walk shows. -/
theorem see_ok (W : WMachine α) {K : Addr → List Addr} (M : MInv W.m K) {R : List Addr} {us : List (RTree (Addr × α))}
    (T : Top W.m.heap R) (D : DenL W.m.heap.lab K R us) {o : WalkOut Pos} {o' : WalkOut Addr} (h : OutRel (nodeOf K R) o o') :
    W.see o' = (W, seen (mapL Prod.snd us) o) ∧ seen (mapL Prod.snd us) o ≠ .bad := by
  have key : ∀ p a, nodeOf K R p = some a → ∃ t, RTree.nodeAt? (mapL Prod.snd us) p = some t ∧ lookAt a W.m.heap = .ok t.glance W.m.heap := by
    intro p a e
    obtain ⟨u, h1, rfl, h3, h4⟩ := nodeAt_lab M.inv T D e
    refine ⟨u.map Prod.snd, by rw [nodeAt_mapL, h1]; rfl, ?_⟩
    rw [lookAt_lab (L := ⟨W.m, fun _ => none, 0⟩) M h3 h4]
    have : (u.map Prod.snd).glance = (u.data.2, u.kids.length, u.count) := by
      simp only [RTree.glance, RTree.count_map, RTree.kids_map]
      cases u; simp [mapL_eq]
    rw [this]
  rcases o with _ | (_ | ⟨k, p⟩) | (_ | p) | _ <;> rcases o' with _ | (_ | ⟨k', a⟩) | (_ | a) | _ <;> simp only [OutRel] at h <;>
    simp only [WMachine.see, seen, ne_eq, reduceCtorEq, not_false_eq_true, and_self]
  · obtain ⟨rfl, h⟩ := h
    obtain ⟨t, h1, h2⟩ := key p a h
    rw [h1, h2]
    exact ⟨rfl, by simp⟩
  · obtain ⟨t, h1, h2⟩ := key p a h
    rw [h1, h2]
    exact ⟨rfl, by simp⟩

theorem WOK.frame (H : WOK W S) {op : Op α} {m' : Machine α} (hb : (op.writes ++ op.reads).any (Trees.borrowed W.walks W.made) = false)
    (h : (∃ o, step W.m op = .ok m' o) ∨ step W.m op = .panic m') : WOK { W with m := m' } { S with store := m'.store } := by
  have hr' : Reachable m' := by
    rcases h with ⟨o, h⟩ | h
    · exact .ok H.reach h
    · exact .panic H.reach h
  refine ⟨hr', rfl, H.made, fun i => ?_, H.fresh⟩
  have hi := H.ref i
  rcases hW : W.walks i with _ | ⟨x, w⟩
  · rw [hW] at hi
    revert hi
    generalize S.walks i = s
    intro hi
    cases hi; exact .none
  · rw [hW] at hi
    revert hi
    generalize S.walks i = s
    intro hi
    cases hi with
    | @some _ v us _ c h1 h2 h3 =>
      have hx : x ∉ op.writes := by
        intro hm
        rw [List.any_eq_false] at hb
        refine hb x (List.mem_append_left _ hm) ?_
        simp only [Trees.borrowed, List.any_eq_true, List.mem_range]
        exact ⟨i, H.lt hW, by simp [hW]⟩
      obtain ⟨K, M⟩ := Proof.reachable_minv H.reach
      have hf : x < W.m.fresh := by
        refine Nat.lt_of_not_le fun hf => ?_
        rw [Machine.lview, M.fr x hf] at h1; cases h1
      have e : m'.lview x = W.m.lview x := by
        rcases h with ⟨o, h⟩ | h
        · exact (writes_frame H.reach hx hf).1 o h
        · exact (writes_frame H.reach hx hf).2 h
      have e' := e.trans h1
      refine .some e' h2 fun K' M' => ?_
      exact rel_frame (walked_lab M h1 h2).1 (walked_lab M' e' h2).1 (h3 K M)

theorem wsim (H : WOK W S) (op : WOp α) : WOK (wstep W op).1 (wspec S op).1 ∧ (wstep W op).2 = (wspec S op).2 ∧
    ((∀ c, op ≠ .call c) → (wstep W op).1.m = W.m) ∧ (wstep W op).2 ≠ .bad := by
  simp only [wstep, wspec, ← H.clash]
  cases hcl : wclash W.walks W.made op with
  | true => exact ⟨H, rfl, fun _ => rfl, by simp⟩
  | false =>
    simp only [Bool.false_eq_true, if_false]
    obtain ⟨K, M⟩ := Proof.reachable_minv H.reach
    cases op with
    | call op =>
      have h := c10_step H.reach op
      simp only [wexec, wdo]
      rw [H.store, ← h]
      cases hs : step W.m op with
      | ok m' o => exact ⟨H.frame hcl (.inl ⟨o, hs⟩), rfl, fun h => absurd rfl (h op), by simp⟩
      | panic m' => exact ⟨H.frame hcl (.inr hs), rfl, fun h => absurd rfl (h op), by simp⟩
      | rejected => exact ⟨H, rfl, fun _ => rfl, by simp⟩
      | bad => exact absurd hs (c10_never_bad H.reach op)
    | walk x =>
      have hvar : S.store.vars x = (W.m.lview x).map (Val.map Prod.snd) := by rw [H.store, c48_view H.reach]; rfl
      simp only [wexec, wdo]
      rw [hvar]
      cases hx : W.m.lview x with
      | none =>
        cases he : W.m.env x with
        | none => exact ⟨H, rfl, fun _ => rfl, by simp⟩
        | some hd =>
          obtain ⟨w, e1, -⟩ := M.lview_den he
          rw [hx] at e1; cases e1
      | some v =>
        simp only [Option.map_some, Option.bind_some, walked_map]
        cases hu : v.walked with
        | none =>
          obtain ⟨hd, e, ho, hv⟩ := M.lview_some hx
          rw [e]
          cases v <;> simp only [Val.walked, reduceCtorEq] at hu
          cases hd <;> simp only [HDenV] at hv
          exact ⟨H, rfl, fun _ => rfl, by simp [Handle.startWalk]⟩
        | some us =>
          obtain ⟨h1, h2, hd, c, w, h3, h4, h5, h6⟩ := walked_lab M hx hu
          rw [h3]
          simp only [Option.bind_some, h4, h5, Option.map_some, H.made]
          refine ⟨⟨H.reach, H.store, by simp [H.made, WStore.put], fun i => ?_, fun i hi => ?_⟩, trivial, fun _ => rfl, by simp⟩
          · simp only [WMachine.put, WStore.put, H.made]
            by_cases e : i = W.made
            · simp only [e, if_true]
              refine .some hx hu fun K' M' => ?_
              exact rel_frame h1 (walked_lab M' hx hu).1 h6
            · simpa [e] using H.ref i
          · simp only [WMachine.put] at hi ⊢
            rw [if_neg (by omega)]
            exact H.fresh i (by omega)
    | act i op =>
      have hi := H.ref i
      rcases hW : W.walks i with _ | ⟨x, w⟩
      · rw [hW] at hi
        cases hS : S.walks i <;> rw [hS] at hi <;> cases hi
        simp only [wexec, wdo, hW, hS]
        exact ⟨H, trivial, fun _ => trivial, by simp⟩
      · rw [hW] at hi
        revert hi
        generalize hS : S.walks i = s
        intro hi
        cases hi with
        | @some _ v us _ c h1 h2 h3 =>
          obtain ⟨D, T, -⟩ := walked_lab M h1 h2
          obtain ⟨o', w', e1, e2, e3⟩ := call_ok M.inv T D.plain (h3 K M) op
          rw [act_callC W hW e1]
          have := see_ok (W.put i (some (x, w'))) (K := K) M T D e2
          rw [this.1]
          simp only [wdo, hS]
          refine ⟨H.put (H.lt hW) (.some h1 h2 fun K' M' => ?_), trivial, fun _ => rfl, this.2⟩
          exact rel_frame D (walked_lab M' h1 h2).1 e3
    | unwalk i =>
      have hi := H.ref i
      simp only [wexec, wdo]
      rcases hW : W.walks i with _ | b
      · rw [hW] at hi
        cases hS : S.walks i <;> rw [hS] at hi <;> cases hi
        exact ⟨H, rfl, fun _ => rfl, by simp⟩
      · rw [hW] at hi
        cases hS : S.walks i with
        | none => rw [hS] at hi; cases hi
        | some s => exact ⟨H.put (H.lt hW) .none, rfl, fun _ => rfl, by simp⟩

end
end Trees
