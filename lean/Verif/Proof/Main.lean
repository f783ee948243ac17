import Verif.Proof.Refine2
/-
The refinement theorem for one call.
-/
namespace Trees
set_option linter.unusedSimpArgs false
variable {α : Type}

section
variable {m : Machine α} {K : Addr → List Addr} {S : Store α}

theorem sim_same (M : MInv m K) (A : Abs m K S) (o : Out α) : Sim (m.ret m.heap m.env o) (.ok S o) :=
  ⟨rfl, K, M, A⟩

theorem refines_treeNew (M : MInv m K) (A : Abs m K S) (d : α) : Sim (step m (.treeNew d)) (specStep S (.treeNew d)) := by
  obtain ⟨h', e, hI, hS, hU, hdat, hup, hlog, hna, _, hK⟩ := makeNode_ok M.inv M.st (d := .scattered d 0) (.inr ⟨_, _, rfl⟩)
  have hnu : ¬ m.heap.Used m.heap.nextAddr := fun h => Nat.lt_irrefl _ (M.st.liveB _ h.1)
  have hval : ∀ b, m.heap.Used b → h'.val b = m.heap.val b := by
    intro b hb
    have : b ≠ m.heap.nextAddr := fun e => hnu (e ▸ hb)
    simp [Heap.val, hdat, upd_apply, this]
  have hvn : h'.val m.heap.nextAddr = some d := by simp [Heap.val, hdat, Data.setOwner, Data.val?]
  simp only [step, specStep, Machine.run, treeNew, e]
  refine sim_bind_new M A (K' := upd K m.heap.nextAddr []) hI hS ?_ ?_ ?_ ?_ hnu ?_ ?_ hlog
  · intro a c hc
    have hk : c ∈ K a := by
      simp only [upd_apply] at hc
      split at hc
      · simp at hc
      · exact hc
    rw [Heap.isVal_iff, hval c (M.inv.used_of_mem hk), ← Heap.isVal_iff]
    exact M.kv a c hk
  · intro b hb _
    exact ⟨(hU b).mpr (.inl hb), (hK b hb).symm, hval b hb⟩
  · intro b hb
    have : b ≠ m.heap.nextAddr := fun e => hnu (e ▸ hb)
    rw [hup]; simp [upd_apply, this]
  · intro b hb
    rcases (hU b).mp hb with h1 | h1
    · exact .inl h1
    · exact .inr (fun _ => h1)
  · exact ⟨(hU _).mpr (.inr rfl), by simp [Handle.addr, hup], Heap.isVal_iff.mpr ⟨d, hvn⟩⟩
  · simp [HDen, hvn]

/-- The effect of `Forest::new`. -/
theorem forestNew_sim (M : MInv m K) (A : Abs m K S) : ∃ h', forestNew m.heap = .ok m.heap.nextAddr h' ∧
    Sim (m.retVar h' m.env (.forest m.heap.nextAddr)) (.ok (S.bind (.forest [])) (.var S.fresh)) := by
  obtain ⟨h', e, hI, hS, hU, hdat, hup, hlog, hna, _, hK⟩ := makeNode_ok M.inv M.st (d := .scatteredNone 0) (.inl ⟨_, rfl⟩)
  refine ⟨h', e, ?_⟩
  have hnu : ¬ m.heap.Used m.heap.nextAddr := fun h => Nat.lt_irrefl _ (M.st.liveB _ h.1)
  have hval : ∀ b, m.heap.Used b → h'.val b = m.heap.val b := by
    intro b hb
    have : b ≠ m.heap.nextAddr := fun e => hnu (e ▸ hb)
    simp [Heap.val, hdat, upd_apply, this]
  have hvn : h'.val m.heap.nextAddr = none := by simp [Heap.val, hdat, Data.setOwner, Data.val?]
  refine sim_bind_new M A (K' := upd K m.heap.nextAddr []) hI hS ?_ ?_ ?_ ?_ hnu ?_ ?_ hlog
  · intro a c hc
    have hk : c ∈ K a := by
      simp only [upd_apply] at hc
      split at hc
      · simp at hc
      · exact hc
    rw [Heap.isVal_iff, hval c (M.inv.used_of_mem hk), ← Heap.isVal_iff]
    exact M.kv a c hk
  · intro b hb _
    exact ⟨(hU b).mpr (.inl hb), (hK b hb).symm, hval b hb⟩
  · intro b hb
    have : b ≠ m.heap.nextAddr := fun e => hnu (e ▸ hb)
    rw [hup]; simp [upd_apply, this]
  · intro b hb
    rcases (hU b).mp hb with h1 | h1
    · exact .inl h1
    · exact .inr (fun _ => h1)
  · exact ⟨(hU _).mpr (.inr rfl), by simp [Handle.addr, hup], hvn⟩
  · simp [HDen]

theorem refines_forestNew (M : MInv m K) (A : Abs m K S) : Sim (step m .forestNew) (specStep S .forestNew) := by
  obtain ⟨h', e, H⟩ := forestNew_sim M A
  simp only [step, specStep, Machine.run, e]
  exact H

theorem refines_pushFront (M : MInv m K) (A : Abs m K S) {x p y} :
    Sim (step m (.pushFront x p y)) (specStep S (.pushFront x p y)) := by
  refine sim_takeTree M A (fun t tt hxy hy _ hd _ => sim_onKids M A (fun hd' n v us a => ?_))
  obtain ⟨h', e, same, hI⟩ := pushFront_ok (a.attach M hy hxy)
  simp only [Machine.run, e]
  exact sim_attach M A a hxy hy hd (l := []) (r := K n) (us1 := []) (us2 := us) rfl (by simp) a.kden same hI rfl

theorem refines_pushBack (M : MInv m K) (A : Abs m K S) {x p y} :
    Sim (step m (.pushBack x p y)) (specStep S (.pushBack x p y)) := by
  refine sim_takeTree M A (fun t tt hxy hy _ hd _ => sim_onKids M A (fun hd' n v us a => ?_))
  obtain ⟨h', e, same, hI⟩ := pushBack_ok (a.attach M hy hxy)
  simp only [Machine.run, e]
  exact sim_attach M A a hxy hy hd (l := K n) (r := []) (us1 := us) (us2 := []) (by simp) a.kden (by simp) same hI rfl

theorem getLast_split {β : Type} {l : List β} {b : β} (h : l.getLast? = some b) : l = l.dropLast ++ [b] := by
  obtain ⟨hne, rfl⟩ := List.getLast?_eq_some_iff.mp h
  simp

/-- Result of `pop_front` in the specification. -/
def popFrontSpec (S : Store α) (x : Var) (p : Path) (v : Val α) (us : List (RTree α)) : Outcome (Store α) α :=
  match us with
  | [] => .ok S .none
  | t :: ts => .ok ((S.setKids x v p (fun _ => ts)).bind (.tree t)) (.var S.fresh)

theorem sim_popFront (M : MInv m K) (A : Abs m K S) {x p hd u} {v : Val α} {us} (a : At m K S x p hd u v us) :
    Sim (m.run m.env (popFront u) fun o h => m.retPop h o) (popFrontSpec S x p v us) := by
  have hk := a.kden
  cases hKu : K u with
  | nil =>
    rw [hKu] at hk
    simp at hk; subst hk
    simp only [Machine.run, popFront_nil M.inv (a.used M) hKu]
    exact sim_same M A _
  | cons c ks =>
    rw [hKu] at hk
    obtain ⟨t, ts, rfl, d1, d2⟩ := DenL_cons_left.mp hk
    obtain ⟨h', e, R⟩ := popFront_ok M.inv hKu
    simp only [Machine.run, e]
    exact sim_remove M A a (l := []) (r := ks) (us1 := []) (us2 := ts) hKu (by simp) d1 d2 R rfl

theorem sim_popBack (M : MInv m K) (A : Abs m K S) {x p hd u} {v : Val α} {us} (a : At m K S x p hd u v us) :
    Sim (m.run m.env (popBack u) fun o h => m.retPop h o) (match us.getLast? with
      | none => .ok S .none
      | some t => .ok ((S.setKids x v p (fun _ => us.dropLast)).bind (.tree t)) (.var S.fresh)) := by
  have hk := a.kden
  cases hl : us.getLast? with
  | none =>
    have : us = [] := by simpa using hl
    subst this
    simp at hk
    simp only [Machine.run, popBack_nil M.inv (a.used M) hk]
    exact sim_same M A _
  | some t =>
    have hus := getLast_split hl
    have hne : K u ≠ [] := by
      intro e; rw [e] at hk; simp at hk; rw [hk] at hl; simp at hl
    have hKs : K u = (K u).dropLast ++ [(K u).getLast hne] := (List.dropLast_append_getLast hne).symm
    rw [hKs, hus] at hk
    obtain ⟨t1, t2, e12, d1, d2⟩ := hk.split
    obtain ⟨t', ts', rfl, d3, d4⟩ := DenL_cons_left.mp d2
    simp at d4; subst d4
    obtain ⟨rfl, e2⟩ := List.append_inj_left' e12 rfl, List.append_inj_right' e12 rfl
    simp at e2; subst e2
    obtain ⟨h', e, R⟩ := popBack_ok M.inv hKs
    simp only [Machine.run, e]
    exact sim_remove M A a (l := (K u).dropLast) (r := []) (us1 := us.dropLast) (us2 := []) hKs d1 d3 (by simp)
      (by simpa using R) (by simp)

theorem refines_popFront (M : MInv m K) (A : Abs m K S) {x p} :
    Sim (step m (.popFront x p)) (specStep S (.popFront x p)) :=
  sim_onKids M A (fun _ _ _ _ a => sim_popFront M A a)

theorem refines_popBack (M : MInv m K) (A : Abs m K S) {x p} :
    Sim (step m (.popBack x p)) (specStep S (.popBack x p)) :=
  sim_onKids M A (fun _ _ _ _ a => sim_popBack M A a)

theorem At.splice (M : MInv m K) {x p hd n} {v : Val α} {us} (a : At m K S x p hd n v us) {y t}
    (hy : m.env y = some (.forest t)) (hxy : x ≠ y) : SpliceHyp m.heap K (fun _ => 0) n t := by
  have ho := M.hnd y _ hy
  refine ⟨M.inv, M.st, a.used M, ho.used, ho.kind, ho.root, hd.addr, a.rootOf M, ?_⟩
  intro e
  exact hxy (M.dist x y _ _ a.env hy e)

theorem refines_append (M : MInv m K) (A : Abs m K S) {x p y} :
    Sim (step m (.append x p y)) (specStep S (.append x p y)) := by
  refine sim_takeForest M A (fun t tt hxy hy _ hd _ => sim_onKids M A (fun hd' n v us a => ?_))
  obtain ⟨h', K', e, P⟩ := append_ok (a.splice M hy hxy)
  simp only [Machine.run, e]
  exact sim_splice M A a hxy hy hd (fun c => by simp) (fun v' K'' d1 d2 => d1.append d2) P rfl

theorem refines_prepend (M : MInv m K) (A : Abs m K S) {x p y} :
    Sim (step m (.prepend x p y)) (specStep S (.prepend x p y)) := by
  refine sim_takeForest M A (fun t tt hxy hy _ hd _ => sim_onKids M A (fun hd' n v us a => ?_))
  obtain ⟨h', K', e, P⟩ := prepend_ok (a.splice M hy hxy)
  simp only [Machine.run, e]
  exact sim_splice M A a hxy hy hd (fun c => by simp [or_comm]) (fun v' K'' d1 d2 => d2.append d1) P rfl

/-- Unwinding after a failed insertion drops the argument. -/
theorem sim_panic_drop (M : MInv m K) (A : Abs m K S) {y t tt} (hy : m.env y = some (.tree t))
    (hden : Den m.heap.val K t tt) {c : Trees.M α Unit} (hc : ∀ h', dropRoot t m.heap = .ok () h' → c m.heap = .err .panic h')
    {k} : Sim (m.run (m.setEnv y none) c k) (.panic ((S.set y none).drop tt.post)) := by
  have hd : HDen m.heap K (.tree t) (.tree tt) := hden
  obtain ⟨h', K', e, D⟩ := hd.dropped M.inv M.st (M.hnd y _ hy) rfl
  simp only [Machine.run, hc h' e]
  exact ⟨K', minv_drop M A hy D⟩

theorem refines_insertPrevSib (M : MInv m K) (A : Abs m K S) {x l y} :
    Sim (step m (.insertPrevSib x l y)) (specStep S (.insertPrevSib x l y)) := by
  refine sim_takeTree M A (fun t tt hxy hy _ hd _ => sim_onNode M A ?_ ?_)
  · intro r tr hx _ _ hor
    refine sim_panic_drop M A hy hd ?_
    intro h' e
    have := hor.root
    simp only [Handle.addr] at this
    have hl := hor.used.1
    simp only [Handle.addr] at hl
    simp [insertPrevSib, getUp, hl, this, e]
  · intro q i hd' u n v us tn c
    obtain ⟨h1, h2, h3, h4⟩ := c.split
    obtain ⟨h', e, same, hI⟩ := insertPrevSib_ok (c.par.attach M hy hxy) h1
    simp only [Machine.run, e]
    refine sim_attach M A c.par hxy hy hd (l := (K u).take i) (r := n :: (K u).drop (i+1)) (us1 := us.take i)
      (us2 := tn :: us.drop (i+1)) h1 h3 (by simp [h4, c.den]) same hI ?_
    have hi : us.drop i = tn :: us.drop (i+1) := by
      obtain ⟨hi, rfl⟩ := List.getElem?_eq_some_iff.mp c.getT
      rw [List.getElem_cons_drop]
    simp [insertAt, hi]

theorem refines_insertNextSib (M : MInv m K) (A : Abs m K S) {x l y} :
    Sim (step m (.insertNextSib x l y)) (specStep S (.insertNextSib x l y)) := by
  refine sim_takeTree M A (fun t tt hxy hy _ hd _ => sim_onNode M A ?_ ?_)
  · intro r tr hx _ _ hor
    refine sim_panic_drop M A hy hd ?_
    intro h' e
    have := hor.root
    simp only [Handle.addr] at this
    have hl := hor.used.1
    simp only [Handle.addr] at hl
    simp [insertNextSib, getUp, hl, this, e]
  · intro q i hd' u n v us tn c
    obtain ⟨h1, h2, h3, h4⟩ := c.split
    obtain ⟨h', e, same, hI⟩ := insertNextSib_ok (c.par.attach M hy hxy) h1
    simp only [Machine.run, e]
    have hi : us.take (i + 1) = us.take i ++ [tn] := by
      rw [List.take_add_one, c.getT]; rfl
    refine sim_attach M A c.par hxy hy hd (l := (K u).take i ++ [n]) (r := (K u).drop (i+1)) (us1 := us.take i ++ [tn])
      (us2 := us.drop (i+1)) (by simpa using h1) (h3.append (by simp [c.den])) h4 same (by simpa using hI) ?_
    simp only [insertAt, hi]

theorem refines_detach (M : MInv m K) (A : Abs m K S) {x l} :
    Sim (step m (.detach x l)) (specStep S (.detach x l)) := by
  refine sim_onNode M A ?_ ?_
  · intro r tr hx _ _ hor
    have := hor.root
    have hl := hor.used.1
    simp only [Handle.addr] at this hl
    simp only [Machine.run, detach]
    simp [getUp, hl, this]
    exact ⟨K, M, A⟩
  · intro q i hd' u n v us tn c
    obtain ⟨h1, h2, h3, h4⟩ := c.split
    have hnm : n ∈ K u := by rw [h1]; simp
    obtain ⟨h', e, R⟩ := detach_ok M.inv h1 (M.kv u n hnm)
    simp only [Machine.run, e]
    refine sim_remove M A c.par h1 h3 c.den h4 R ?_
    rw [List.eraseIdx_eq_take_drop_succ]

theorem refines_abandon (M : MInv m K) (A : Abs m K S) {x} :
    Sim (step m (.abandon x)) (specStep S (.abandon x)) := by
  simp only [step, specStep]
  have hA := A.vars x
  cases hx : m.env x with
  | none => rw [hx] at hA; simp only at hA; simp [hA, Sim]
  | some hd =>
    rw [hx] at hA
    obtain ⟨v, e, hv⟩ := hA
    rw [e]
    have ho := M.hnd x hd hx
    cases hd <;> cases v <;> simp only [HDen] at hv
    · rename_i r t
      cases t with
      | node d ts =>
        have hv' := hv
        rw [Den_node] at hv'
        obtain ⟨h', e', hI, hS, hU, hval, hup, hlog, hK⟩ := abandon_ok M.inv M.st ho.used hv'.1
        simp only [Handle.addr] at e'
        simp only [Machine.run, e']
        exact sim_abandon M A hx hv rfl hI hS hU hval hup hlog hK
    · trivial
    · trivial

theorem refines_setData (M : MInv m K) (A : Abs m K S) {x l d} :
    Sim (step m (.setData x l d)) (specStep S (.setData x l d)) := by
  refine sim_onNode M A ?_ ?_
  · intro r tr hx hv hden ho
    cases tr with
    | node d0 ts =>
      rw [Den_node] at hden
      obtain ⟨h', e, hI, hS, hU, hval, hup, hlog⟩ := dataMutSet_ok (d := d) M.inv M.st ho.used hden.1
      simp only [Handle.addr] at e hval
      simp only [Machine.run, e]
      refine sim_setData M A hx (.refl _) hI hS hU hval hup hlog ho.kind ?_
      simp only [HDen, RTree.kids_node, Den_node]
      refine ⟨by rw [hval]; simp, hden.2.congr (fun c hc b hb => ⟨rfl, ?_⟩)⟩
      have : b ≠ r := by rintro rfl; exact M.inv.not_reach_up hc hb
      rw [hval]; simp [upd_apply, this]
  · intro q i hd' u n v us tn c
    obtain ⟨h1, h2, h3, h4⟩ := c.split
    have hnm : n ∈ K u := by rw [h1]; simp
    cases tn with
    | node d0 ts =>
      have hden := c.den
      rw [Den_node] at hden
      obtain ⟨h', e, hI, hS, hU, hval, hup, hlog⟩ := dataMutSet_ok (d := d) M.inv M.st (M.inv.used_of_mem hnm) hden.1
      simp only [Machine.run, e]
      refine sim_setData M A c.par.env (c.par.reach.tail hnm) hI hS hU hval hup hlog (M.kv u n hnm) ?_
      have hnd := M.inv.l.nodup u
      rw [h1] at hnd
      have hne : ∀ b, b ≠ n → h'.val b = m.heap.val b := by
        intro b hb; rw [hval]; simp [upd_apply, hb]
      have hsib : ∀ z ∈ K u, z ≠ n → ∀ b, Reach K z b → b ≠ n := by
        rintro z hz hzn b hb rfl
        exact hzn (M.inv.sib_disjoint hz hnm hb (.refl _))
      refine hden_modify (us := us) M.inv c.par.den c.par.res c.par.kids (fun _ _ _ => rfl) ?_ ?_
      · intro b hb hb2
        refine hne b ?_
        rintro rfl
        rcases hb2 with rfl | hb2
        · exact M.inv.not_self hnm
        · exact hb2 (.step hnm (.refl _))
      · have hset : us.set i (.node d ts) = us.take i ++ (.node d ts) :: us.drop (i+1) := by
          rw [List.set_eq_take_append_cons_drop, if_pos]
          exact (List.getElem?_eq_some_iff.mp c.getT).1
        simp only [RTree.kids_node]
        rw [hset, h1]
        simp only [List.nodup_append, List.nodup_cons] at hnd
        refine DenL.append (h3.congr ?_) ?_
        · intro z hz b hb
          exact ⟨rfl, hne b (hsib z (by rw [h1]; simp [hz]) (fun e => hnd.2.2 z hz n (by simp) e) b hb)⟩
        · rw [DenL_cons]
          constructor
          · rw [Den_node]
            refine ⟨by rw [hval]; simp, hden.2.congr (fun c hc b hb => ⟨rfl, hne b ?_⟩)⟩
            rintro rfl; exact M.inv.not_reach_up hc hb
          · refine h4.congr ?_
            intro z hz b hb
            exact ⟨rfl, hne b (hsib z (by rw [h1]; simp [hz]) (fun e => hnd.2.1.1 (e ▸ hz)) b hb)⟩

theorem refines_drop (M : MInv m K) (A : Abs m K S) {x} :
    Sim (step m (.drop x)) (specStep S (.drop x)) := by
  simp only [step, specStep]
  have hA := A.vars x
  cases hx : m.env x with
  | none => rw [hx] at hA; simp only at hA; simp [hA, Sim]
  | some hd =>
    rw [hx] at hA
    obtain ⟨v, e, hv⟩ := hA
    rw [e]
    have ho := M.hnd x hd hx
    cases hd with
    | tree r =>
      obtain ⟨h', K', e', D⟩ := hv.dropped M.inv M.st ho rfl
      simp only [Machine.run, e']
      exact ⟨rfl, K', minv_drop M A hx D⟩
    | forest r =>
      obtain ⟨h', K', e', D⟩ := hv.dropped M.inv M.st ho rfl
      simp only [Machine.run, e']
      exact ⟨rfl, K', minv_drop M A hx D⟩
    | iter r =>
      cases v <;> simp only [HDen] at hv
      obtain ⟨h', K', e', D⟩ := intoIterDrop_ok M.inv M.st ho.used ho.root ho.kind hv
      simp only [Handle.addr] at e'
      simp only [Machine.run, e']
      exact ⟨rfl, K', minv_drop M A hx D⟩

theorem refines_intoIter (M : MInv m K) (A : Abs m K S) {x} :
    Sim (step m (.intoIter x)) (specStep S (.intoIter x)) := by
  simp only [step, specStep]
  have hA := A.vars x
  cases hx : m.env x with
  | none => rw [hx] at hA; simp only at hA; simp [hA, Sim]
  | some hd =>
    rw [hx] at hA
    obtain ⟨v, e, hv⟩ := hA
    rw [e]
    have ho := M.hnd x hd hx
    cases hd <;> cases v <;> simp only [HDen] at hv
    · rename_i r t
      have hxf := M.fresh_ne hx
      obtain ⟨h1, e1, -, K1, M1, A1⟩ := forestNew_sim M A
      set m1 : Machine α := ⟨h1, upd m.env m.fresh (some (.forest m.heap.nextAddr)), m.fresh + 1⟩
      have hx1 : m1.env x = some (.tree r) := by simp [m1, upd_apply, hxf, hx]
      have hf1 : m1.env m.fresh = some (.forest m.heap.nextAddr) := by simp [m1]
      have hAf := A1.vars m.fresh
      rw [hf1] at hAf
      obtain ⟨w, ew, hw⟩ := hAf
      have : w = .forest [] := by
        have : (S.bind (Val.forest [])).vars m.fresh = some (Val.forest []) := by simp [Store.bind, A.fresh]
        rw [this] at ew; exact (Option.some.inj ew).symm
      subst this
      have a1 : At m1 K1 (S.bind (.forest [])) m.fresh [] (.forest m.heap.nextAddr) m.heap.nextAddr (.forest []) [] :=
        ⟨hf1, ew, hw, rfl, rfl, hw⟩
      have hAx := A1.vars x
      rw [hx1] at hAx
      obtain ⟨w2, ew2, hw2⟩ := hAx
      have : w2 = .tree t := by
        have : (S.bind (Val.forest [])).vars x = some (Val.tree t) := by simp [Store.bind, A.fresh, hxf, e]
        rw [this] at ew2; exact (Option.some.inj ew2).symm
      subst this
      have hKf : K1 m.heap.nextAddr = [] := by simpa [HDen] using hw
      obtain ⟨h2, e2, same, hI⟩ := pushBack_ok (a1.attach M1 hx1 (fun e => hxf e.symm))
      have := sim_attach M1 A1 a1 (fun e => hxf e.symm) hx1 hw2 (l := K1 m.heap.nextAddr) (r := []) (us1 := []) (us2 := [])
        (by simp) (by simp [hKf]) (by simp) same hI (f := fun us => us ++ [t]) rfl
      obtain ⟨-, K2, M2, A2⟩ := this
      have hf2 : (⟨h2, m1.setEnv x none, m1.fresh⟩ : Machine α).env m.fresh = some (.forest m.heap.nextAddr) := by
        have : m.fresh ≠ x := fun e => hxf e.symm
        simp [Machine.setEnv, upd_apply, this, hf1]
      have key := M2
      have hrun : treeIntoIter r m.heap = .ok m.heap.nextAddr h2 := by
        have e2' : pushBack m.heap.nextAddr r h1 = .ok () h2 := e2
        simp [treeIntoIter, e1, e2']
      simp only [Machine.run, hrun]
      -- retag the handle
      have hne : m.fresh ≠ x := fun e => hxf e.symm
      have henv : ∀ z, upd (m.setEnv x none) m.fresh (some (Handle.iter m.heap.nextAddr)) z =
          if z = m.fresh then some (.iter m.heap.nextAddr) else (m1.setEnv x none) z := by
        intro z
        simp only [upd_apply, Machine.setEnv, m1]
        by_cases h1 : z = m.fresh <;> by_cases h2 : z = x <;> simp [h1, h2]
      have hgen : ∀ z hz, upd (m.setEnv x none) m.fresh (some (Handle.iter m.heap.nextAddr)) z = some hz →
          ∃ hz', (m1.setEnv x none) z = some hz' ∧ hz'.addr = hz.addr ∧
            (hz' = hz ∨ (hz' = .forest m.heap.nextAddr ∧ hz = .iter m.heap.nextAddr)) := by
        intro z hz h1
        rw [henv] at h1
        split at h1
        · rename_i e; subst e
          obtain rfl := Option.some.inj h1
          exact ⟨_, hf2, rfl, .inr ⟨rfl, rfl⟩⟩
        · exact ⟨hz, h1, rfl, .inl rfl⟩
      refine ⟨by rw [A.fresh], K2, ⟨M2.inv, M2.st, M2.kv, ?_, ?_, ?_, ?_⟩, ⟨?_, by simp [Store.bind, Store.set, A.fresh], A2.log⟩⟩
      · intro z hz h1
        obtain ⟨hz', g1, g2, g3⟩ := hgen z hz h1
        have := M2.hnd z hz' g1
        rcases g3 with rfl | ⟨rfl, rfl⟩
        · exact this
        · exact ⟨this.used, this.root, this.kind⟩
      · intro z w hz hw h1 h2 e
        obtain ⟨hz', g1, g2, g3⟩ := hgen z hz h1
        obtain ⟨hw', k1, k2, k3⟩ := hgen w hw h2
        exact M2.dist z w hz' hw' g1 k1 (by rw [g2, k2, e])
      · intro b hb hb2
        obtain ⟨z, hz, h3, h4⟩ := M2.all b hb hb2
        by_cases hzf : z = m.fresh
        · subst hzf
          rw [hf2] at h3
          obtain rfl := Option.some.inj h3
          exact ⟨m.fresh, .iter m.heap.nextAddr, by simp, h4⟩
        · refine ⟨z, hz, ?_, h4⟩
          show upd (m.setEnv x none) m.fresh (some (Handle.iter m.heap.nextAddr)) z = _
          rw [henv]; simp [hzf]; exact h3
      · intro z hz
        show upd (m.setEnv x none) m.fresh (some (Handle.iter m.heap.nextAddr)) z = none
        rw [henv]
        simp only at hz
        have : z ≠ m.fresh := by omega
        simp only [this, if_false]
        exact M2.fr z hz
      · intro z
        show match upd (m.setEnv x none) m.fresh (some (Handle.iter m.heap.nextAddr)) z with
          | none => _
          | some hd => _
        rw [henv]
        have hA2 := A2.vars z
        by_cases hzf : z = m.fresh
        · subst hzf
          rw [hf2] at hA2
          obtain ⟨w3, e3, hw3⟩ := hA2
          simp only [if_true]
          have : w3 = .forest [t] := by
            simp [Store.setKids, Store.set, Val.setKids, Val.kids, modKids] at e3
            exact e3.symm
          subst this
          exact ⟨.iter [t], by simp [Store.bind, Store.set, A.fresh], hw3⟩
        · simp only [hzf, if_false]
          have hs : ((S.set x none).bind (Val.iter [t])).vars z =
              (((S.bind (.forest [])).set x none).setKids m.fresh (.forest []) [] (fun us => us ++ [t])).vars z := by
            simp only [Store.bind, Store.set, Store.setKids, A.fresh, hzf, if_false]
          rw [hs]
          exact hA2
    · rename_i r ts
      exact sim_toIter M A hx e
    · trivial

theorem refines_iterNext (M : MInv m K) (A : Abs m K S) {x} :
    Sim (step m (.iterNext x)) (specStep S (.iterNext x)) := by
  simp only [step, specStep]
  have hA := A.vars x
  cases hx : m.env x with
  | none => rw [hx] at hA; simp only at hA; simp [hA, Sim]
  | some hd =>
    rw [hx] at hA
    obtain ⟨v, e, hv⟩ := hA
    rw [e]
    cases hd <;> cases v <;> simp only [HDen] at hv
    · trivial
    · trivial
    · rename_i r ts
      have a : At m K S x [] (.iter r) r (.iter ts) ts := ⟨hx, e, hv, rfl, rfl, hv⟩
      have := sim_popFront M A a
      cases ts with
      | nil => exact this
      | cons t ts => exact this

theorem sim_read (M : MInv m K) (A : Abs m K S) {β : Type} {c : Trees.M α β} {b : β} (hc : c m.heap = .ok b m.heap)
    (f : β → Out α) {o : Out α} (ho : f b = o) :
    Sim (m.run m.env c fun b h => m.ret h m.env (f b)) (.ok S o) := by
  subst ho
  simp only [Machine.run, hc]
  exact sim_same M A _

theorem degree_len {h : Heap α} (hI : Inv h K) {a : Addr} (ha : h.Used a) : degree a h = .ok (K a).length h := by
  have := hI.s a ha
  simp [degree, getSize_ok, ha.1, this]

theorem refines_iterLen (M : MInv m K) (A : Abs m K S) {x} :
    Sim (step m (.iterLen x)) (specStep S (.iterLen x)) := by
  simp only [step, specStep]
  have hA := A.vars x
  cases hx : m.env x with
  | none => rw [hx] at hA; simp only at hA; simp [hA, Sim]
  | some hd =>
    rw [hx] at hA
    obtain ⟨v, e, hv⟩ := hA
    rw [e]
    have ho := M.hnd x hd hx
    cases hd <;> cases v <;> simp only [HDen] at hv
    · trivial
    · trivial
    · rename_i r ts
      exact sim_read M A (degree_len (a := r) M.inv ho.used) _ (by rw [hv.length])

theorem refines_data (M : MInv m K) (A : Abs m K S) {x l} :
    Sim (step m (.data x l)) (specStep S (.data x l)) := by
  refine sim_onNode M A ?_ ?_
  · intro r tr hx hv hden ho
    cases tr with
    | node d0 ts =>
      rw [Den_node] at hden
      exact sim_read M A (dataRef_ok (a := r) ho.used.1 hden.1) _ rfl
  · intro q i hd' u n v us tn c
    obtain ⟨h1, h2, h3, h4⟩ := c.split
    have hnm : n ∈ K u := by rw [h1]; simp
    cases tn with
    | node d0 ts =>
      have hden := c.den
      rw [Den_node] at hden
      exact sim_read M A (dataRef_ok (a := n) (M.inv.used_of_mem hnm).1 hden.1) _ rfl

theorem refines_degree (M : MInv m K) (A : Abs m K S) {x p} :
    Sim (step m (.degree x p)) (specStep S (.degree x p)) :=
  sim_onKids M A (fun _ n _ _ a => sim_read M A (degree_len (a := n) M.inv (a.used M)) _ (by rw [a.kden.length]))

theorem getHead_K {h : Heap α} (hI : Inv h K) {a : Addr} (ha : h.Used a) : getHead a h = .ok (K a).head? h := by
  simp [getHead, ha.1, hI.l.head a ha]

theorem getTail_K {h : Heap α} (hI : Inv h K) {a : Addr} (ha : h.Used a) : getTail a h = .ok (K a).getLast? h := by
  simp [getTail, ha.1, hI.l.tail a ha]

theorem refines_hasNoChild (M : MInv m K) (A : Abs m K S) {x p} :
    Sim (step m (.hasNoChild x p)) (specStep S (.hasNoChild x p)) := by
  refine sim_onKids M A (fun _ n _ us a => sim_read M A (b := us.isEmpty) ?_ _ rfl)
  have hk := a.kden
  simp [hasNoChild, getHead_K M.inv (a.used M)]
  cases hKn : K n with
  | nil => rw [hKn] at hk; simp at hk; simp [hk]
  | cons c ks => rw [hKn] at hk; obtain ⟨t, ts, rfl, _⟩ := DenL_cons_left.mp hk; simp

theorem isForest_iff {D} {h : Heap α} (hS : SInvD h D) {a : Addr} (ha : h.Used a) :
    (h.data a).isForest = true ↔ h.val a = none := by
  have := hS.owner a ha
  cases hd : h.data a <;> simp_all [Data.isForest, Heap.val, Data.val?, Owned]

theorem refines_nodeCount (M : MInv m K) (A : Abs m K S) {x p} :
    Sim (step m (.nodeCount x p)) (specStep S (.nodeCount x p)) := by
  refine sim_onKids' M A (fun hd n v us hit a => ?_)
  have hU := a.used M
  have hsz : (m.heap.size n).descendants = RTree.countL us := by
    have := M.inv.s n hU
    rw [this]
    exact M.inv.dsum_eq (fun c hc => M.inv.used_of_mem hc) a.kden
  refine sim_read M A (b := if (m.heap.data n).isForest then RTree.countL us else RTree.countL us + 1) ?_ _ ?_
  · simp only [nodeCount, isForest, getData, getSize_ok, hU.1, Trees.M.bind_apply, rd_ok, Res.bind_ok, Trees.M.pure_apply, ← hsz]
    split <;> simp [getSize_ok, hU.1]
  · have hiff := isForest_iff M.st hU
    cases p with
    | nil =>
      have hn : hd.addr = n := by simpa [resolve] using a.res
      have ho := M.hnd x hd a.env
      have hk := ho.kind
      have hd' := a.den
      cases hd <;> cases v <;> simp only [HDen] at hd'
      · simp only [HKind, Heap.isVal_iff] at hk
        simp only [Handle.addr] at hn; subst hn
        obtain ⟨d, e⟩ := hk
        have : ¬ ((m.heap.data ‹Addr›).isForest = true) := by rw [hiff, e]; simp
        simp [this]
      · simp only [HKind] at hk
        simp only [Handle.addr] at hn; subst hn
        simp [hiff.mpr hk]
      · simp [Handle.isIter] at hit
    | cons i q =>
      have : m.heap.IsVal n := by
        have hr := a.res
        simp only [resolve] at hr
        cases hc : (K hd.addr)[i]? with
        | none => rw [hc] at hr; simp at hr
        | some c =>
          rw [hc] at hr
          have hcm := List.mem_of_getElem? hc
          rcases (resolve_reach hr).cases_tail with e | ⟨q, _, h2⟩
          · subst e; exact M.kv _ _ hcm
          · exact M.kv q n h2
      obtain ⟨d, e⟩ := Heap.isVal_iff.mp this
      have : ¬ ((m.heap.data n).isForest = true) := by rw [hiff, e]; simp
      simp [this]

theorem refines_childData (M : MInv m K) (A : Abs m K S) {x p} :
    Sim (step m (.childData x p)) (specStep S (.childData x p)) := by
  refine sim_onKids M A (fun _ n _ us a => sim_read M A (b := us.map RTree.data) ?_ _ rfl)
  have hU := a.used M
  simp only [Trees.M.bind_apply, children_ok M.inv hU, Res.bind_ok]
  refine readMany_ok (R := fun c d => m.heap.live c = true ∧ m.heap.val c = some d) (fun c _ d hd => dataRef_ok hd.1 hd.2) ?_
  have := DenL_forall₂.mp a.kden
  rw [List.forall₂_map_right_iff]
  have h2 : ∀ c ∈ K n, m.heap.live c = true := fun c hc => (M.inv.used_of_mem hc).1
  clear a
  generalize K n = cs at this h2
  induction this with
  | nil => exact .nil
  | cons h hs ih =>
    rename_i c t cs ts
    refine .cons ⟨h2 c (by simp), ?_⟩ (ih (fun z hz => h2 z (by simp [hz])))
    cases t; rw [Den_node] at h; exact h.1

theorem den_val {h : Heap α} {a : Addr} {t : RTree α} (hd : Den h.val K a t) : h.val a = some t.data := by
  cases t; rw [Den_node] at hd; exact hd.1

theorem refines_frontData (M : MInv m K) (A : Abs m K S) {x p} :
    Sim (step m (.frontData x p)) (specStep S (.frontData x p)) := by
  refine sim_onKids M A (fun _ n _ us a => sim_read M A (b := us.head?.map RTree.data) ?_ _ rfl)
  have hk := a.kden
  simp only [Trees.M.bind_apply, front, getHead_K M.inv (a.used M), Res.bind_ok]
  cases hKn : K n with
  | nil => rw [hKn] at hk; simp at hk; simp [hk]
  | cons c ks =>
    rw [hKn] at hk; obtain ⟨t, ts, rfl, d1, _⟩ := DenL_cons_left.mp hk
    have := dataRef_ok (M.inv.used_of_mem (a := n) (c := c) (by rw [hKn]; simp)).1 (den_val d1)
    simp [this]

theorem refines_backData (M : MInv m K) (A : Abs m K S) {x p} :
    Sim (step m (.backData x p)) (specStep S (.backData x p)) := by
  refine sim_onKids M A (fun _ n _ us a => sim_read M A (b := us.getLast?.map RTree.data) ?_ _ rfl)
  have hk := a.kden
  simp only [Trees.M.bind_apply, back, getTail_K M.inv (a.used M), Res.bind_ok]
  rw [List.getLast?_eq_getElem?, List.getLast?_eq_getElem?, ← hk.length]
  rcases hk.get ((K n).length - 1) with ⟨g1, g2⟩ | ⟨c, t, g1, g2, g3⟩
  · simp [g1, g2]
  · have := dataRef_ok (M.inv.used_of_mem (List.mem_of_getElem? g1)).1 (den_val g3)
    simp [g1, g2, this]

end
end Trees
