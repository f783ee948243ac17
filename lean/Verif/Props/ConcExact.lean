import Verif.Proof.ConcExact
import Verif.Props.ConcWitness
/-
C61: `Separate` is exactly the condition under which there are no data races.
-/
namespace Trees
set_option linter.unusedSimpArgs false
set_option linter.unusedVariables false
variable {α : Type} {n : Nat}

namespace Proof
open Fine

/-- Fewer nodes are in use. -/
theorem usedCnt_lt {h h' : Heap α} {nv nw : NodeVec} (eb : nw.base = nv.base) (ec : nw.cap = nv.cap) (sub : ∀ a, h'.Used a → h.Used a) {a : Addr}
    (ha : h.Used a) (hn : ¬ h'.Used a) (hi : InVec nv a) : usedCnt h' nw < usedCnt h nv := by
  have ub : ∀ (g : Heap α) b, g.usedB b = true ↔ g.Used b := fun g b => by
    simp [Heap.usedB, Heap.Used]
  simp only [usedCnt, eb, ec]
  have hm : a ∈ List.range' nv.base nv.cap := by simp [List.mem_range'_1]; exact hi
  revert hm
  generalize List.range' nv.base nv.cap = l
  intro hm
  have le : ∀ l : List Addr, l.countP h'.usedB ≤ l.countP h.usedB := fun l =>
    List.countP_mono_left fun x _ hx => (ub h x).mpr (sub x ((ub h' x).mp hx))
  induction l with
  | nil => cases hm
  | cons b l ih =>
    rw [List.countP_cons, List.countP_cons]
    by_cases c : b = a
    · subst c
      have c1 : h.usedB b = true := (ub h b).mpr ha
      have c2 : ¬ h'.usedB b = true := fun c => hn ((ub h' b).mp c)
      rw [if_pos c1, if_neg c2]
      have := le l
      omega
    · have := ih (by rcases List.mem_cons.mp hm with e | e; exact absurd e.symm c; exact e)
      have h1 : (if h'.usedB b = true then 1 else 0) ≤ (if h.usedB b = true then 1 else 0) := by
        by_cases c1 : h'.usedB b = true
        · rw [if_pos c1, if_pos ((ub h b).mpr (sub b ((ub h' b).mp c1)))]; exact Nat.le_refl _
        · rw [if_neg c1]; exact Nat.zero_le _
      omega

/-- Dropping the value of a variable writes every block that contains one of its nodes. -/
theorem drop_gets {A : Alloc} {m m' : Machine α} {K : Addr → List Addr} (r : AMRel A m m') (M : MInv m' K) {x : Var} {hd : Handle}
    (hx : m'.env x = some hd) {a : Addr} (hr : Reach K hd.addr a) {v : Nat} {nv : NodeVec} (hv : m'.heap.vec v = some nv) (hi : InVec nv a) :
    Gets A (A.vec v) m.heap (if hd.isIter then Fine.intoIterDrop (A.addr hd.addr) else Fine.dropRoot (A.addr hd.addr) : Prog α Unit) := by
  have ho := M.hnd x hd hx
  have hA := M.abs_store.vars x
  rw [hx] at hA
  obtain ⟨w, -, hw⟩ := hA
  have key : ∀ (p p' : Prog α Unit) (c c' : Trees.M α Unit) (h1 : Heap α) (K1 : Addr → List Addr) (lg : List α), NA p → NA p' → Imp A p c → Imp A p' c' → ASim A False id c c' →
      c' m'.heap = .ok () h1 → Dropped m'.heap K hd.addr lg h1 K1 (fun _ => 0) → Gets A (A.vec v) m.heap p := by
    intro p p' c c' h1 K1 lg na na' ip ip' al e D
    have hA := al m.heap m'.heap r.heap
    rw [e] at hA
    cases ec : c m.heap with
    | err y L =>
      rw [ec] at hA
      cases y <;> exact hA.elim
    | ok u L =>
      rw [ec] at hA
      obtain ⟨-, r1⟩ := hA
      refine gets_of_run na (h' := L) (b := u) (by rw [ip]; exact ec) ?_
      rw [r.heap.vec v nv hv]
      intro q
      obtain ⟨v2, nv2, g1, g2⟩ := r1.vonto _ _ q
      obtain ⟨nw, g3, g4, g5⟩ := na_vec (A := A) na' (h := m'.heap) (by rw [ip']; exact e) g1
      have : v2 = v := r.heap.vinj _ _ _ _ g3 hv g2
      subst this
      rw [hv] at g3; cases g3
      have g6 := r1.vec _ _ g1
      rw [q] at g6
      have g7 : nv.refCnt = nv2.refCnt := by injection g6 with g6; injection g6
      have c1 := M.st.cnt _ _ hv
      have c2 := D.st.cnt _ _ g1
      have ha : m'.heap.Used a := reach_used M ho.used hr
      have := usedCnt_lt (h := m'.heap) (h' := h1) (nv := nv) (nw := nv2) g4.symm g5.symm (fun b hb => ((D.sh.used b).mp hb).1) ha
        (fun hb => ((D.sh.used a).mp hb).2 hr) hi
      omega
  cases hd with
  | tree t =>
    obtain ⟨h1, K1, e, D⟩ := hw.dropped M.inv M.st ho rfl
    exact key _ _ _ _ h1 K1 _ (na_dropRoot _) (na_dropRoot t) (imp_dropRoot _) (imp_dropRoot _) (al_dropRoot t) e D
  | forest t =>
    obtain ⟨h1, K1, e, D⟩ := hw.dropped M.inv M.st ho rfl
    exact key _ _ _ _ h1 K1 _ (na_dropRoot _) (na_dropRoot t) (imp_dropRoot _) (imp_dropRoot _) (al_dropRoot t) e D
  | iter t =>
    cases w <;> simp only [HDen] at hw
    obtain ⟨h1, K1, e, D⟩ := intoIterDrop_ok M.inv M.st ho.used ho.root ho.kind hw
    exact key _ _ _ _ h1 K1 _ (na_intoIterDrop _) (na_intoIterDrop t) (imp_intoIterDrop _) (imp_intoIterDrop _) (al_intoIterDrop t) e D

theorem exec_drop_gets {A : Alloc} {V : Fine.Vars} {x : Var} {hd : Handle} (hx : V.env x = some hd) {w : Nat} {h : Heap α}
    (g : Gets A w h (if hd.isIter then Fine.intoIterDrop hd.addr else Fine.dropRoot hd.addr : Prog α Unit)) : Gets A w h (Fine.exec V [.drop x]) := by
  simp only [Fine.exec]
  refine Gets.bind ?_ _
  cases hd <;> simp only [Fine.step, hx] <;> exact Gets.catch_ g _ _

end Proof

/-- **C61** (the converse) If a block has nodes of values that go to different threads, then two threads that do nothing but drop these values
can get into a data race. -/
theorem c61_drops_race {A0 : Alloc} {ops0 : List (Op α)} {m : Machine α} {A : Fin n → Alloc} (h : Spawned A0 ops0 m A) {own : Var → Fin n}
    {x y : Var} (hxy : own x ≠ own y) {p q : Path} {w : Nat} (hp : m.blockAt x p = some w) (hq : m.blockAt y q = some w) :
    ∃ sched s, (Fine.start m own (fun i => if i = own x then [.drop x] else if i = own y then [.drop y] else [])).run A sched = some s ∧ s.Race := by
  obtain ⟨os0, e0⟩ := Proof.spawned_run h
  have r : ∀ i, AMRel (A i) m (exec step Machine.empty ops0).1 := fun i => Fine.amrel_agree e0 ⟨h.addr i, h.vec i⟩
  have hr : Reachable (exec step (Machine.empty : Machine α) ops0).1 := by
    have := Proof.execA_sim A0 ops0 _ _ (Proof.amrel_empty A0) .init
    rw [e0] at this
    exact this.2.2
  obtain ⟨K, M⟩ := Proof.reachable_minv hr
  generalize (exec step (Machine.empty : Machine α) ops0).1 = m' at r hr M
  have key : ∀ (i : Fin n) (z : Var) (path : Path) (V : Fine.Vars), V.env z = m.env z → m.blockAt z path = some w →
      Fine.Gets (A i) w { m.heap with log := [] } (Fine.exec V [.drop z]) := by
    intro i z path V hV hb
    simp only [Machine.blockAt] at hb
    rw [Proof.amrel_nodeAt (r i) hr] at hb
    cases hn : m'.nodeAt z path with
    | none => rw [hn] at hb; cases hb
    | some a =>
      rw [hn] at hb
      simp only [Option.map_some, Option.bind_some] at hb
      cases he : m'.env z with
      | none => simp [Machine.nodeAt, he] at hn
      | some hd =>
        have ho := M.hnd z hd he
        simp only [Machine.nodeAt, he, locate_ok M.inv ho.used] at hn
        have hre : Reach K hd.addr a := resolve_reach hn
        have hu := Fine.reach_used M ho.used hre
        rw [(r i).heap.data a (.inl hu.1)] at hb
        have hov := M.st.owner a hu
        have : ∃ v nv, m'.heap.vec v = some nv ∧ InVec nv a ∧ (A i).vec v = w := by
          cases e1 : m'.heap.data a with
          | none => rw [e1] at hb; cases hb
          | scatteredNone o => rw [e1] at hb; cases hb
          | scattered d o => rw [e1] at hb; cases hb
          | piledNone v =>
            rw [e1] at hov hb
            obtain ⟨-, nv, h1, h2⟩ := hov
            exact ⟨v, nv, h1, h2, Option.some.inj hb⟩
          | piled d v =>
            rw [e1] at hov hb
            obtain ⟨-, nv, h1, h2⟩ := hov
            exact ⟨v, nv, h1, h2, Option.some.inj hb⟩
        obtain ⟨v, nv, h1, h2, h3⟩ := this
        have g := Proof.drop_gets (Proof.amrel_clearLog (r i)) (Proof.minv_clearLog M) (x := z) (hd := hd) he hre h1 h2
        rw [h3] at g
        have ev : m.env z = some (hd.ren (A i)) := by rw [(r i).at z, he]; rfl
        refine Proof.exec_drop_gets (hd := hd.ren (A i)) (by rw [hV]; exact ev) ?_
        cases hd <;> exact g
  obtain ⟨s1, a1, k1, w1, p1, v1, r1⟩ := Fine.Gets.walk (As := A) (j := own x) (key (own x) x p ⟨fun z => if own z = own x then m.env z else none, m.fresh⟩ (if_pos rfl) hp)
    (s := Fine.start m own (fun i => if i = own x then [.drop x] else if i = own y then [.drop y] else [])) rfl (by simp [Fine.start])
  obtain ⟨s2, a2, k2, w2, p2, v2, r2⟩ := Fine.Gets.walk (As := A) (j := own y) (key (own y) y q ⟨fun z => if own z = own y then m.env z else none, m.fresh⟩ (if_pos rfl) hq)
    (s := Fine.start m own (fun i => if i = own x then [.drop x] else if i = own y then [.drop y] else [])) rfl (by simp [Fine.start, Ne.symm hxy])
  exact Fine.races hxy w1 w2 p1 p2 v1 v2 r1

/-- **C61** the exact condition: there is no data race, whatever the threads do with their values and in whatever order, if and only if no
block has nodes of values that went to different threads. -/
theorem c61_exact {A0 : Alloc} {ops0 : List (Op α)} {m : Machine α} {A : Fin n → Alloc} (h : Spawned A0 ops0 m A) {own : Var → Fin n} :
    (∀ ops sched s, (Fine.start m own ops).run A sched = some s → ¬ s.Race) ↔ m.Separate own := by
  refine ⟨fun hn x y p q v hxy hp hq => ?_, fun sep ops sched s e => c61_no_race_partial h sep e⟩
  obtain ⟨sched, s, e, hr⟩ := c61_drops_race h hxy hp hq
  exact hn _ sched s e hr

end Trees
