import Verif.Proof.Split
/-
Accesses that do not conflict commute. So two threads that, each alone, would get to conflicting accesses can be brought to a data race.
-/
namespace Trees
namespace Fine
set_option linter.unusedSimpArgs false
set_option linter.unusedVariables false
variable {α β γ : Type} {A : Alloc} {n : Nat}

/-- Not an allocation. -/
def Acc.fixed : Acc α → Bool
  | .make _ => false
  | .newVec _ => false
  | _ => true

/-- The same at a node. -/
def At (h g : Heap α) (y : Addr) : Prop := g.live y = h.live y ∧ Eq9 h g y

theorem At.refl (h : Heap α) (y : Addr) : At h h y := ⟨rfl, Eq9.refl h y⟩
theorem At.trans {h g f : Heap α} {y : Addr} (h1 : At h g y) (h2 : At g f y) : At h f y := ⟨h2.1.trans h1.1, h1.2.trans h2.2⟩
theorem At.symm {h g : Heap α} {y : Addr} (h1 : At h g y) : At g h y := ⟨h1.1.symm, h1.2.symm⟩

/-- The nodes that an access writes or frees. -/
def Writes (a : Acc α) (h : Heap α) (y : Addr) : Prop :=
  a.reads = false ∧ (a.node? = some y ∨ ∃ v nv, a = .freeVec v ∧ h.vec v = some nv ∧ nv.base ≤ y ∧ y < nv.base + nv.cap)

/-- The blocks that an access writes or frees. -/
def WritesV (a : Acc α) (v : Nat) : Prop := a.reads = false ∧ a.vec? = some v

/-- `g` is like `h` where the access looks. -/
structure Alike (a : Acc α) (h g : Heap α) : Prop where
  node : ∀ y, a.node? = some y → At h g y
  vec : ∀ v, a.vec? = some v → g.vec v = h.vec v
  next : g.nextAddr = h.nextAddr

/-- What the access does to `g`, if it turns `h` into `h'`. -/
structure Does (a : Acc α) (h h' g g' : Heap α) : Prop where
  hit : ∀ y, Writes a h y → At h' g' y ∨ (g'.live y = h'.live y ∧ Eq9 h h' y ∧ Eq9 g g' y)
  miss : ∀ y, ¬ Writes a h y → At g g' y
  vhit : ∀ v, WritesV a v → g'.vec v = h'.vec v
  vmiss : ∀ v, ¬ WritesV a v → g'.vec v = g.vec v
  nextAddr : g'.nextAddr = g.nextAddr
  nextVec : g'.nextVec = g.nextVec
  log : ∃ l, h'.log = h.log ++ l ∧ g'.log = g.log ++ l
  free : ∀ v, a = .freeVec v → ∀ y, Eq9 g g' y ∧ (Writes a h y → g'.live y = false)

theorem Does.same {a : Acc α} {h g : Heap α} (hr : a.reads = true) : Does a h h g g := by
  refine ⟨fun y hy => ?_, fun y _ => At.refl _ _, fun v hv => ?_, fun _ _ => rfl, rfl, rfl, ⟨[], by simp, by simp⟩, fun v hv => by subst hv; cases hr⟩
  · rw [hy.1] at hr; cases hr
  · rw [hv.1] at hr; cases hr

theorem Does.node {a : Acc α} {h h' g g' : Heap α} {b : Addr} (hr : a.reads = false) (hn : a.node? = some b) (hv : a.vec? = none)
    (h1 : At h' g' b) (h2 : ∀ y, y ≠ b → At g g' y) (h3 : g'.vec = g.vec) (h4 : g'.nextAddr = g.nextAddr) (h5 : g'.nextVec = g.nextVec)
    (h6 : ∃ l, h'.log = h.log ++ l ∧ g'.log = g.log ++ l) : Does a h h' g g' := by
  refine ⟨fun y hy => .inl ?_, fun y hy => ?_, fun v hv' => ?_, fun v _ => by rw [h3], h4, h5, h6, fun v hv => by subst hv; cases hn⟩
  · rcases hy.2 with e | ⟨v, nv, e, -⟩
    · rw [hn] at e; cases e; exact h1
    · subst e; cases hn
  · refine h2 y ?_
    rintro rfl
    exact hy ⟨hr, .inl hn⟩
  · have := hv'.2; rw [hv] at this; cases this

theorem acc_does {a : Acc α} (hf : a.fixed = true) {h g h' : Heap α} {x : a.Ret} (e : a.run A h = .ok x h') (al : Alike a h g) :
    ∃ g', a.run A g = .ok x g' ∧ Does a h h' g g' := by
  cases a with
  | ptr f b =>
    obtain ⟨l1, e1, e2, e3, e4, e5, e6, e7, e8, e9⟩ := al.node b rfl
    cases l : h.live b with
    | false => cases f <;> simp [Acc.run, Fld.get, Trees.getPrev, Trees.getNext, Trees.getHead, Trees.getTail, Trees.getUp, rd, l] at e
    | true =>
      rw [l] at l1
      refine ⟨g, ?_, ?_⟩
      · cases f <;> simp only [Acc.run, Fld.get, Trees.getPrev, Trees.getNext, Trees.getHead, Trees.getTail, Trees.getUp, rd, l, l1, if_true] at e ⊢ <;> cases e <;>
          simp only [e1, e2, e3, e4, e5] <;> rfl
      · have : h' = h := by cases f <;> simp only [Acc.run, Fld.get, Trees.getPrev, Trees.getNext, Trees.getHead, Trees.getTail, Trees.getUp, rd, l, l1, if_true] at e <;> cases e <;> rfl
        subst this
        exact Does.same rfl
  | setPtr f b v =>
    obtain ⟨l1, e1, e2, e3, e4, e5, e6, e7, e8, e9⟩ := al.node b rfl
    cases l : h.live b with
    | false => cases f <;> simp [Acc.run, Fld.set, Trees.setPrev, Trees.setNext, Trees.setHead, Trees.setTail, Trees.setUp, wr, l] at e
    | true =>
      rw [l] at l1
      cases f <;> simp only [Acc.run, Fld.set, Trees.setPrev, Trees.setNext, Trees.setHead, Trees.setTail, Trees.setUp, wr, l, l1, if_true] at e ⊢ <;> cases e <;>
        exact ⟨_, rfl, Does.node (b := b) rfl rfl rfl (by simp [At, Eq9, *]) (fun y hy => by simp [At, Eq9, upd_of_ne _ _ hy]) rfl rfl rfl ⟨[], by simp, by simp⟩⟩
  | size b =>
    obtain ⟨l1, e1, e2, e3, e4, e5, e6, e7, e8, e9⟩ := al.node b rfl
    cases l : h.live b with
    | false => simp [Acc.run, Trees.getSize, rd, l] at e
    | true =>
      rw [l] at l1
      simp only [Acc.run, Trees.getSize, rd, l, l1, if_true] at e ⊢
      cases e
      exact ⟨g, by rw [e6]; rfl, Does.same rfl⟩
  | setSize b s =>
    obtain ⟨l1, e1, e2, e3, e4, e5, e6, e7, e8, e9⟩ := al.node b rfl
    cases l : h.live b with
    | false => simp [Acc.run, Trees.setSize, wr, l] at e
    | true =>
      rw [l] at l1
      simp only [Acc.run, Trees.setSize, wr, l, l1, if_true] at e ⊢
      cases e
      exact ⟨_, rfl, Does.node (b := b) rfl rfl rfl (by simp [At, Eq9, *]) (fun y hy => by simp [At, Eq9, upd_of_ne _ _ hy]) rfl rfl rfl ⟨[], by simp, by simp⟩⟩
  | data b =>
    obtain ⟨l1, e1, e2, e3, e4, e5, e6, e7, e8, e9⟩ := al.node b rfl
    cases l : h.live b with
    | false => simp [Acc.run, Trees.getData, rd, l] at e
    | true =>
      rw [l] at l1
      simp only [Acc.run, Trees.getData, rd, l, l1, if_true] at e ⊢
      cases e
      exact ⟨g, by rw [e7]; rfl, Does.same rfl⟩
  | setData b s =>
    obtain ⟨l1, e1, e2, e3, e4, e5, e6, e7, e8, e9⟩ := al.node b rfl
    cases l : h.live b with
    | false => simp [Acc.run, Trees.setData, wr, l] at e
    | true =>
      rw [l] at l1
      simp only [Acc.run, Trees.setData, wr, l, l1, if_true] at e ⊢
      cases e
      exact ⟨_, rfl, Does.node (b := b) rfl rfl rfl (by simp [At, Eq9, *]) (fun y hy => by simp [At, Eq9, upd_of_ne _ _ hy]) rfl rfl rfl ⟨[], by simp, by simp⟩⟩
  | make d => cases hf
  | rcDrop b =>
    obtain ⟨l1, e1, e2, e3, e4, e5, e6, e7, e8, e9⟩ := al.node b rfl
    cases l : h.live b with
    | false => simp [Acc.run, Trees.rcDrop, l] at e
    | true =>
      rw [l] at l1
      simp only [Acc.run, Trees.rcDrop, l, l1, if_true, e8] at e ⊢
      by_cases c1 : h.count b = 1
      · rw [if_pos c1] at e ⊢
        cases e
        exact ⟨_, rfl, Does.node (b := b) rfl rfl rfl (by simp [At, Eq9, *]) (fun y hy => by simp [At, Eq9, upd_of_ne _ _ hy]) rfl rfl rfl ⟨_, rfl, by rw [e7]⟩⟩
      · rw [if_neg c1] at e ⊢
        by_cases c0 : h.count b = 0
        · rw [if_pos c0] at e; cases e
        · rw [if_neg c0] at e ⊢
          cases e
          exact ⟨_, rfl, Does.node (b := b) rfl rfl rfl (by simp [At, Eq9, *]) (fun y hy => by simp [At, Eq9, upd_of_ne _ _ hy]) rfl rfl rfl ⟨[], by simp, by simp⟩⟩
  | newVec k => cases hf
  | vecNode v i =>
    have hv := al.vec v rfl
    cases l : h.vec v with
    | none => simp [Acc.run, Trees.vecNode, l] at e
    | some nv =>
      rw [l] at hv
      simp only [Acc.run, Trees.vecNode, l, hv] at e ⊢
      by_cases c : i < nv.cap
      · rw [if_pos c] at e ⊢; cases e; exact ⟨g, rfl, Does.same rfl⟩
      · rw [if_neg c] at e; cases e
  | getRef v =>
    have hv := al.vec v rfl
    cases l : h.vec v with
    | none => simp [Acc.run, l] at e
    | some nv =>
      rw [l] at hv
      simp only [Acc.run, l, hv] at e ⊢
      cases e; exact ⟨g, rfl, Does.same rfl⟩
  | setRef v k =>
    have hv := al.vec v rfl
    cases l : h.vec v with
    | none => simp [Acc.run, l] at e
    | some nv =>
      rw [l] at hv
      simp only [Acc.run, l, hv] at e ⊢
      cases e
      refine ⟨_, rfl, fun y hy => ?_, fun y _ => ⟨rfl, Eq9.refl _ _⟩, fun w hw => ?_, fun w hw => ?_, rfl, rfl, ⟨[], by simp, by simp⟩, fun v e => by cases e⟩
      · rcases hy.2 with e | ⟨v, nv, e, -⟩ <;> cases e
      · have : v = w := Option.some.inj hw.2
        subst this; simp
      · exact upd_of_ne _ _ (fun e => hw ⟨rfl, by rw [e]; rfl⟩)
  | freeVec v =>
    have hv := al.vec v rfl
    cases l : h.vec v with
    | none => simp [Acc.run, l] at e
    | some nv =>
      rw [l] at hv
      simp only [Acc.run, l, hv] at e ⊢
      cases e
      refine ⟨_, rfl, fun y hy => .inr ⟨?_, Eq9.refl _ _, Eq9.refl _ _⟩, fun y hy => ⟨?_, Eq9.refl _ _⟩, fun w hw => ?_, fun w hw => ?_, rfl, rfl, ⟨[], by simp, by simp⟩,
        fun w e y => ⟨Eq9.refl _ _, fun hy => ?_⟩⟩
      · rcases hy.2 with e | ⟨w, nw, e, e1, h1, h2⟩
        · cases e
        · cases e; rw [l] at e1; cases e1
          simp [killRange, h1, h2]
      · have : ¬ (nv.base ≤ y ∧ y < nv.base + nv.cap) := fun c => hy ⟨rfl, .inr ⟨v, nv, rfl, l, c.1, c.2⟩⟩
        simp only [killRange, if_neg this]
      · have : v = w := Option.some.inj hw.2
        subst this; simp
      · exact upd_of_ne _ _ (fun e => hw ⟨rfl, by rw [e]; rfl⟩)
      · rcases hy.2 with e | ⟨w, nw, e, e1, h1, h2⟩
        · cases e
        · cases e; rw [l] at e1; cases e1
          simp [killRange, h1, h2]
  | logDrop d =>
    simp only [Acc.run, Trees.logDrop] at e ⊢
    cases e
    refine ⟨_, rfl, fun y hy => ?_, fun y _ => ⟨rfl, Eq9.refl _ _⟩, fun w hw => ?_, fun w hw => rfl, rfl, rfl, ⟨_, rfl, rfl⟩, fun v e => by cases e⟩
    · rcases hy.2 with e | ⟨v, nv, e, -⟩ <;> cases e
    · cases hw.2
  | bound =>
    simp only [Acc.run] at e ⊢
    cases e
    exact ⟨g, by rw [al.next], Does.same rfl⟩

/-- The same memory. -/
structure Mem (h g : Heap α) : Prop where
  node : ∀ y, At h g y
  vec : g.vec = h.vec

theorem Mem.symm {h g : Heap α} (m : Mem h g) : Mem g h := ⟨fun y => (m.node y).symm, m.vec.symm⟩

theorem Mem.view {h g : Heap α} (m : Mem h g) (t : Thread α β) : t.view g = t.view h := by
  obtain ⟨h1, h2, h3, h4, h5, h6, h7, h8, h9, h10, h11, h12, h13, h14⟩ := h
  obtain ⟨g1, g2, g3, g4, g5, g6, g7, g8, g9, g10, g11, g12, g13, g14⟩ := g
  obtain ⟨m1, m2⟩ := m
  simp only at m2
  subst m2
  have a1 : g1 = h1 := funext fun y => (m1 y).1
  have a2 : g2 = h2 := funext fun y => (m1 y).2.1
  have a3 : g3 = h3 := funext fun y => (m1 y).2.2.1
  have a4 : g4 = h4 := funext fun y => (m1 y).2.2.2.1
  have a5 : g5 = h5 := funext fun y => (m1 y).2.2.2.2.1
  have a6 : g6 = h6 := funext fun y => (m1 y).2.2.2.2.2.1
  have a7 : g7 = h7 := funext fun y => (m1 y).2.2.2.2.2.2.1
  have a8 : g8 = h8 := funext fun y => (m1 y).2.2.2.2.2.2.2.1
  have a9 : g9 = h9 := funext fun y => (m1 y).2.2.2.2.2.2.2.2.1
  have a10 : g10 = h10 := funext fun y => (m1 y).2.2.2.2.2.2.2.2.2
  subst a1; subst a2; subst a3; subst a4; subst a5; subst a6; subst a7; subst a8; subst a9; subst a10
  rfl

theorem view_mem (t : Thread α β) (h : Heap α) : Mem h (t.view h) := ⟨fun _ => ⟨rfl, Eq9.refl _ _⟩, rfl⟩

/-- No conflict, whichever comes first. -/
def Apart2 (mem : Heap α) (a b : Acc α) : Prop := ¬ Conflict mem a b ∧ ¬ Conflict mem b a

theorem Apart2.symm {mem : Heap α} {a b : Acc α} (h : Apart2 mem a b) : Apart2 mem b a := ⟨h.2, h.1⟩

theorem Apart2.writes {mem : Heap α} {a b : Acc α} (h : Apart2 mem a b) {y : Addr} (hb : b.node? = some y) : ¬ Writes a mem y := by
  rintro ⟨h1, h2 | ⟨v, nv, e, e1, h3, h4⟩⟩
  · exact h.1 ⟨.inl h1, .inl ⟨y, h2, hb⟩⟩
  · exact h.1 ⟨.inl h1, .inr (.inr ⟨v, nv, y, e, e1, hb, h3, h4⟩)⟩

theorem Apart2.writesV {mem : Heap α} {a b : Acc α} (h : Apart2 mem a b) {v : Nat} (hb : b.vec? = some v) : ¬ WritesV a v :=
  fun ⟨h1, h2⟩ => h.1 ⟨.inl h1, .inr (.inl ⟨v, h2, hb⟩)⟩

theorem Writes.mem {a : Acc α} {h g : Heap α} (m : g.vec = h.vec) {y : Addr} : Writes a g y ↔ Writes a h y := by
  unfold Writes; rw [m]

theorem commute {a b : Acc α} {mem : Heap α} (ap : Apart2 mem a b) (fa : a.fixed = true) (fb : b.fixed = true) {h k h1 k1 h2 k2 : Heap α}
    {A B : Alloc} (mh : Mem mem h) (mk : Mem mem k) {x : a.Ret} {y : b.Ret} (ea : a.run A h = .ok x h1) (eb : b.run B k = .ok y k1)
    (m2 : Mem k1 h2) (n2 : h2.nextAddr = h.nextAddr) (m3 : Mem h1 k2) (n3 : k2.nextAddr = k.nextAddr) :
    ∃ hh kk, a.run A h2 = .ok x hh ∧ b.run B k2 = .ok y kk ∧ Mem hh kk ∧ hh.nextAddr = h2.nextAddr ∧ hh.nextVec = h2.nextVec ∧
      (∃ l, h1.log = h.log ++ l ∧ hh.log = h2.log ++ l) ∧ kk.nextAddr = k2.nextAddr ∧ kk.nextVec = k2.nextVec ∧ ∃ l, k1.log = k.log ++ l ∧ kk.log = k2.log ++ l := by
  obtain ⟨_, ea', da⟩ := acc_does fa ea ⟨fun _ _ => At.refl _ _, fun _ _ => rfl, rfl⟩
  obtain ⟨_, eb', db⟩ := acc_does fb eb ⟨fun _ _ => At.refl _ _, fun _ _ => rfl, rfl⟩
  rw [ea] at ea'; cases ea'
  rw [eb] at eb'; cases eb'
  have wa : ∀ y, Writes a h y ↔ Writes a mem y := fun y => Writes.mem mh.vec
  have wb : ∀ y, Writes b k y ↔ Writes b mem y := fun y => Writes.mem mk.vec
  have hm : ∀ y, ¬ Writes a mem y → At mem k2 y := fun y hy =>
    ((mh.node y).trans (da.miss y (fun c => hy ((wa y).mp c)))).trans (m3.node y)
  have km : ∀ y, ¬ Writes b mem y → At mem h2 y := fun y hy =>
    ((mk.node y).trans (db.miss y (fun c => hy ((wb y).mp c)))).trans (m2.node y)
  have hv : ∀ v, ¬ WritesV a v → k2.vec v = mem.vec v := fun v hv => by rw [m3.vec, da.vmiss v hv, mh.vec]
  have kv : ∀ v, ¬ WritesV b v → h2.vec v = mem.vec v := fun v hv => by rw [m2.vec, db.vmiss v hv, mk.vec]
  obtain ⟨hh, eh, dh⟩ := acc_does (g := h2) fa ea ⟨fun z hz => (mh.node z).symm.trans (km z (ap.symm.writes hz)),
    fun v hz => by rw [kv v (ap.symm.writesV hz), mh.vec], n2⟩
  obtain ⟨kk, ek, dk⟩ := acc_does (g := k2) fb eb ⟨fun z hz => (mk.node z).symm.trans (hm z (ap.writes hz)),
    fun v hz => by rw [hv v (ap.writesV hz), mk.vec], n3⟩
  refine ⟨hh, kk, eh, ek, ⟨fun z => ?_, funext fun v => ?_⟩, dh.nextAddr, dh.nextVec, dh.log, dk.nextAddr, dk.nextVec, dk.log⟩
  · by_cases ca : Writes a mem z <;> by_cases cb : Writes b mem z
    · have e1 : ∃ v, a = .freeVec v := by
        rcases ca.2 with e | ⟨v, nv, e, -⟩
        · exact absurd cb (ap.symm.writes e)
        · exact ⟨v, e⟩
      have e2 : ∃ v, b = .freeVec v := by
        rcases cb.2 with e | ⟨v, nv, e, -⟩
        · exact absurd ca (ap.writes e)
        · exact ⟨v, e⟩
      obtain ⟨v, e1⟩ := e1
      obtain ⟨w, e2⟩ := e2
      have a1 := da.free v e1 z
      have a2 := dh.free v e1 z
      have b1 := db.free w e2 z
      have b2 := dk.free w e2 z
      refine ⟨by rw [a2.2 ((wa z).mpr ca), b2.2 ((wb z).mpr cb)], ?_⟩
      have q1 : Eq9 mem k2 z := ((mh.node z).2.trans a1.1).trans (m3.node z).2
      have q2 : Eq9 mem h2 z := ((mk.node z).2.trans b1.1).trans (m2.node z).2
      exact ((q2.trans a2.1).symm.trans q1).trans b2.1
    · have p1 := ((m3.node z).trans (dk.miss z (fun c => cb ((wb z).mp c))))
      rcases dh.hit z ((wa z).mpr ca) with q | ⟨q1, q2, q3⟩
      · exact q.symm.trans p1
      · refine ⟨p1.1.trans q1.symm, ?_⟩
        exact (((km z cb).2.trans q3).symm.trans ((mh.node z).2.trans q2)).trans p1.2
    · have p1 := ((m2.node z).trans (dh.miss z (fun c => ca ((wa z).mp c))))
      rcases dk.hit z ((wb z).mpr cb) with q | ⟨q1, q2, q3⟩
      · exact p1.symm.trans q
      · refine ⟨q1.trans p1.1.symm, ?_⟩
        exact (p1.2.symm.trans ((mk.node z).2.trans q2).symm).trans ((hm z ca).2.trans q3)
    · exact ((km z cb).trans (dh.miss z (fun c => ca ((wa z).mp c)))).symm.trans ((hm z ca).trans (dk.miss z (fun c => cb ((wb z).mp c))))
  · by_cases ca : WritesV a v <;> by_cases cb : WritesV b v
    · exact absurd cb (ap.symm.writesV ca.2)
    · rw [dk.vmiss v cb, dh.vhit v ca, m3.vec]
    · rw [dk.vhit v cb, dh.vmiss v ca, m2.vec]
    · rw [dk.vmiss v cb, dh.vmiss v ca, hv v ca, kv v cb]

theorem acc_ctr {a : Acc α} (hf : a.fixed = true) {h h' : Heap α} {x : a.Ret} (e : a.run A h = .ok x h') :
    h'.nextAddr = h.nextAddr ∧ h'.nextVec = h.nextVec := by
  obtain ⟨_, e', d⟩ := acc_does hf e ⟨fun _ _ => At.refl _ _, fun _ _ => rfl, rfl⟩
  rw [e] at e'; cases e'
  exact ⟨d.nextAddr, d.nextVec⟩

/-- The same threads in the same memory. -/
structure Sys.Eqv (s t : Sys n α β) : Prop where
  th : t.th = s.th
  mem : Mem s.mem t.mem

/-- The state after an access of thread `j`. -/
def Sys.after (s : Sys n α β) (j : Fin n) (h : Heap α) (p : Prog α β) : Sys n α β := ⟨h, Sys.set s.th j ⟨h.nextAddr, h.nextVec, h.log, p⟩⟩

@[simp] theorem Sys.after_self (s : Sys n α β) (j : Fin n) (h : Heap α) (p : Prog α β) : (s.after j h p).th j = ⟨h.nextAddr, h.nextVec, h.log, p⟩ := by
  simp [Sys.after, Sys.set]

theorem Sys.after_ne (s : Sys n α β) {i j : Fin n} (hij : i ≠ j) (h : Heap α) (p : Prog α β) : (s.after j h p).th i = s.th i := by
  simp [Sys.after, Sys.set, hij]

/-- Thread `j` goes on alone, without allocation and without failure. -/
inductive Walk (As : Fin n → Alloc) (j : Fin n) : Sys n α β → Sys n α β → Prop
  | refl (s) : Walk As j s s
  | step {s s' : Sys n α β} {a : Acc α} {k : a.Ret → Prog α β} {x : a.Ret} {h : Heap α} : (s.th j).prog = .acc a k → a.fixed = true →
      a.run (As j) ((s.th j).view s.mem) = .ok x h → Walk As j (s.after j h (k x)) s' → Walk As j s s'

variable {As : Fin n → Alloc}

theorem free_fixed {s : Sys n α β} {i : Fin n} {a : Acc α} (hf : a.fixed = true) : s.free As i a = true := by
  cases a <;> first | rfl | cases hf

theorem step_after {s : Sys n α β} {j : Fin n} {a : Acc α} {k : a.Ret → Prog α β} {x : a.Ret} {h : Heap α} (e : (s.th j).prog = .acc a k)
    (hf : a.fixed = true) (hr : a.run (As j) ((s.th j).view s.mem) = .ok x h) : s.step As j = some (s.after j h (k x)) := by
  simp only [Sys.step, e, free_fixed hf, if_true, hr]; rfl

theorem Walk.run {j : Fin n} {s s' : Sys n α β} (w : Walk As j s s') : ∃ sched, s.run As sched = some s' := by
  induction w with
  | refl s => exact ⟨[], rfl⟩
  | step e hf hr _ ih =>
    obtain ⟨sched, h⟩ := ih
    exact ⟨j :: sched, by simp only [Sys.run, step_after e hf hr, Option.bind_some, h]⟩

theorem run_app {s s' s'' : Sys n α β} {l l' : List (Fin n)} (h1 : s.run As l = some s') (h2 : s'.run As l' = some s'') : s.run As (l ++ l') = some s'' := by
  induction l generalizing s with
  | nil => cases h1; exact h2
  | cons i l ih =>
    simp only [Sys.run, List.cons_append] at h1 ⊢
    cases e : s.step As i with
    | none => rw [e] at h1; cases h1
    | some r => rw [e] at h1; exact ih h1

theorem Walk.other {i j : Fin n} {s s' : Sys n α β} (w : Walk As j s s') (hij : i ≠ j) : s'.th i = s.th i := by
  induction w with
  | refl s => rfl
  | step e hf hr _ ih => rw [ih, Sys.after_ne _ hij]

theorem Walk.eqv {j : Fin n} {s s' t : Sys n α β} (w : Walk As j s s') (q : Sys.Eqv s t) : ∃ t', Walk As j t t' ∧ t'.th j = s'.th j := by
  cases w with
  | refl s => exact ⟨t, .refl _, by rw [q.th]⟩
  | step e hf hr w =>
    refine ⟨_, .step (by rw [q.th]; exact e) hf (by rw [q.th, q.mem.view]; exact hr) ?_, rfl⟩
    have : ∀ h p, t.after j h p = s.after j h p := fun _ _ => by simp only [Sys.after, q.th]
    rw [this]
    exact w

/-- There is a schedule that leads to a data race. -/
def Races (As : Fin n → Alloc) (s : Sys n α β) : Prop := ∃ sched r, s.run As sched = some r ∧ r.Race

theorem Races.of_run {s s' : Sys n α β} {l : List (Fin n)} (e : s.run As l = some s') (h : Races As s') : Races As s := by
  obtain ⟨sched, r, h1, h2⟩ := h
  exact ⟨l ++ sched, r, run_app e h1, h2⟩

/-- An access of thread `i` first: thread `j` can go on as before, unless there is a race. -/
theorem strip {i j : Fin n} (hij : i ≠ j) {s s' : Sys n α β} (w : Walk As j s s') {a : Acc α} {k : a.Ret → Prog α β} {x : a.Ret} {h : Heap α}
    (e : (s.th i).prog = .acc a k) (hf : a.fixed = true) (hr : a.run (As i) ((s.th i).view s.mem) = .ok x h) :
    Races As s ∨ ∃ t, Walk As j (s.after i h (k x)) t ∧ t.th j = s'.th j := by
  induction w generalizing h with
  | refl s => exact .inr ⟨_, .refl _, Sys.after_ne _ (Ne.symm hij) _ _⟩
  | @step s s' b kb y k1 eb hfb hrb w ih =>
    by_cases c : Apart2 s.mem a b
    · have hn := acc_ctr hf hr
      have kn := acc_ctr hfb hrb
      obtain ⟨hh, kk, ea2, eb2, mm, p1, p2, ⟨l, p3, p4⟩, p5, p6, l', p7, p8⟩ := commute c hf hfb (view_mem (s.th i) s.mem) (view_mem (s.th j) s.mem) hr hrb
        (view_mem (s.th i) k1) rfl (view_mem (s.th j) h) rfl
      have e2 : ((s.after j k1 (kb y)).th i).prog = .acc a k := by rw [Sys.after_ne _ hij]; exact e
      have e3 : a.run (As i) (((s.after j k1 (kb y)).th i).view (s.after j k1 (kb y)).mem) = .ok x hh := by
        rw [Sys.after_ne _ hij]; exact ea2
      rcases ih e2 e3 with r | ⟨t, w2, et⟩
      · exact .inl (r.of_run (l := [j]) (by simp only [Sys.run, step_after eb hfb hrb, Option.bind_some]))
      · have e4 : ((s.after i h (k x)).th j).prog = .acc b kb := by rw [Sys.after_ne _ (Ne.symm hij)]; exact eb
        have e5 : b.run (As j) (((s.after i h (k x)).th j).view (s.after i h (k x)).mem) = .ok y kk := by
          rw [Sys.after_ne _ (Ne.symm hij)]; exact eb2
        have q : Sys.Eqv ((s.after j k1 (kb y)).after i hh (k x)) ((s.after i h (k x)).after j kk (kb y)) := by
          refine ⟨funext fun z => ?_, mm⟩
          by_cases zj : z = j
          · subst zj
            rw [Sys.after_self, Sys.after_ne _ (Ne.symm hij), Sys.after_self, p5, p6, p8, kn.1, kn.2, p7]; rfl
          · by_cases zi : z = i
            · subst zi
              rw [Sys.after_ne _ hij, Sys.after_self, Sys.after_self, p1, p2, p4, hn.1, hn.2, p3]; rfl
            · rw [Sys.after_ne _ zj, Sys.after_ne _ zi, Sys.after_ne _ zi, Sys.after_ne _ zj]
        obtain ⟨t', w3, et'⟩ := w2.eqv q
        exact .inr ⟨t', .step e4 hfb e5 w3, by rw [et', et]⟩
    · refine .inl ⟨[], s, rfl, ?_⟩
      by_cases c1 : Conflict s.mem a b
      · exact ⟨i, j, a, k, b, kb, hij, e, eb, c1⟩
      · by_cases c2 : Conflict s.mem b a
        · exact ⟨j, i, b, kb, a, k, Ne.symm hij, eb, e, c2⟩
        · exact absurd ⟨c1, c2⟩ c

/-- Two threads that, each alone, would write the same block. -/
theorem races {i j : Fin n} (hij : i ≠ j) {s si sj : Sys n α β} (wi : Walk As i s si) (wj : Walk As j s sj) {w : Nat} {a b : Acc α}
    {ka : a.Ret → Prog α β} {kb : b.Ret → Prog α β} (ea : (si.th i).prog = .acc a ka) (eb : (sj.th j).prog = .acc b kb)
    (ha : a.vec? = some w) (hb : b.vec? = some w) (hw : a.reads = false) : Races As s := by
  induction wi generalizing sj with
  | refl s =>
    obtain ⟨sched, e⟩ := wj.run
    exact ⟨sched, sj, e, i, j, a, ka, b, kb, hij, by rw [wj.other hij]; exact ea, eb, .inl hw, .inr (.inl ⟨w, ha, hb⟩)⟩
  | step e hf hr _ ih =>
    rcases strip hij wj e hf hr with r | ⟨t, w2, et⟩
    · exact r
    · exact (ih w2 ea (by rw [et]; exact eb)).of_run (l := [i]) (by simp only [Sys.run, step_after e hf hr, Option.bind_some])

/-- The program, run alone in `h`, gets to an access that writes block `w`, without allocation. -/
inductive Gets (A : Alloc) (w : Nat) : Heap α → Prog α β → Prop
  | here {h : Heap α} {a : Acc α} {k : a.Ret → Prog α β} : a.vec? = some w → a.reads = false → Gets A w h (.acc a k)
  | next {h h' : Heap α} {a : Acc α} {k : a.Ret → Prog α β} {x : a.Ret} : a.fixed = true → a.run A h = .ok x h' → Gets A w h' (k x) → Gets A w h (.acc a k)

theorem Gets.bind {w : Nat} {h : Heap α} {p : Prog α β} (g : Gets A w h p) (f : β → Prog α γ) : Gets A w h (p.bind f) := by
  induction g with
  | here h1 h2 => exact .here h1 h2
  | next h1 h2 _ ih => exact .next h1 h2 ih

theorem Gets.catch_ {w : Nat} {h : Heap α} {p : Prog α β} (g : Gets A w h p) (f : β → Prog α γ) (f' : Err → Prog α γ) : Gets A w h (p.catch_ f f') := by
  induction g with
  | here h1 h2 => exact .here h1 h2
  | next h1 h2 _ ih => exact .next h1 h2 ih

theorem Gets.walk {w : Nat} {h : Heap α} {p : Prog α β} {j : Fin n} (g : Gets (As j) w h p) {s : Sys n α β} (e : (s.th j).view s.mem = h)
    (e2 : (s.th j).prog = p) : ∃ s' a k, Walk As j s s' ∧ (s'.th j).prog = .acc a k ∧ a.vec? = some w ∧ a.reads = false := by
  induction g generalizing s with
  | here h1 h2 => exact ⟨s, _, _, .refl _, e2, h1, h2⟩
  | @next h h' a k x h1 h2 _ ih =>
    obtain ⟨s', a', k', w1, q⟩ := ih (s := s.after j h' (k x)) (by rw [Sys.after_self]; rfl) (by rw [Sys.after_self])
    exact ⟨s', a', k', .step e2 h1 (by rw [e]; exact h2) w1, q⟩

/-- Programs that never allocate. -/
def NA : Prog α β → Prop
  | .ret _ => True
  | .fail _ => True
  | .acc a k => a.fixed = true ∧ ∀ x, NA (k x)

theorem gets_of_run {w : Nat} {p : Prog α β} (hp : NA p) {h h' : Heap α} {b : β} (e : p.run A h = .ok b h') (hv : h'.vec w ≠ h.vec w) : Gets A w h p := by
  induction p generalizing h with
  | ret b => cases e; exact absurd rfl hv
  | fail x => cases e
  | acc a k ih =>
    by_cases c : a.vec? = some w ∧ a.reads = false
    · exact .here c.1 c.2
    · cases er : a.run A h with
      | err x hx => simp only [Prog.run, er] at e; cases e
      | ok x h1 =>
        simp only [Prog.run, er] at e
        obtain ⟨_, e', d⟩ := acc_does hp.1 er ⟨fun _ _ => At.refl _ _, fun _ _ => rfl, rfl⟩
        rw [er] at e'; cases e'
        have : h1.vec w = h.vec w := d.vmiss w fun q => c ⟨q.2, q.1⟩
        exact .next hp.1 er (ih x (hp.2 x) e (by rw [this]; exact hv))

/-- Blocks stay where they are. -/
theorem na_vec {p : Prog α β} (hp : NA p) {h h' : Heap α} {b : β} (e : p.run A h = .ok b h') {v : Nat} {nv : NodeVec} (hv : h'.vec v = some nv) :
    ∃ nw, h.vec v = some nw ∧ nw.base = nv.base ∧ nw.cap = nv.cap := by
  induction p generalizing h with
  | ret b => cases e; exact ⟨nv, hv, rfl, rfl⟩
  | fail x => cases e
  | acc a k ih =>
    cases er : a.run A h with
    | err x hx => simp only [Prog.run, er] at e; cases e
    | ok x h1 =>
      simp only [Prog.run, er] at e
      obtain ⟨nw, q1, q2, q3⟩ := ih x (hp.2 x) e
      by_cases c : WritesV a v
      · obtain ⟨c1, c2⟩ := c
        cases a <;> simp only [Acc.vec?, Option.some.injEq, reduceCtorEq] at c2 <;> subst c2
        · cases c1
        · cases c1
        · rename_i w k
          cases l : h.vec w with
          | none => simp [Acc.run, l] at er
          | some nu =>
            simp only [Acc.run, l] at er
            cases er
            simp only [upd_self, Option.some.injEq] at q1
            subst q1
            exact ⟨nu, rfl, q2, q3⟩
        · rename_i w
          cases l : h.vec w with
          | none => simp [Acc.run, l] at er
          | some nu =>
            simp only [Acc.run, l] at er
            cases er
            simp at q1
      · obtain ⟨_, e', d⟩ := acc_does hp.1 er ⟨fun _ _ => At.refl _ _, fun _ _ => rfl, rfl⟩
        rw [er] at e'; cases e'
        exact ⟨nw, by rw [← d.vmiss v c]; exact q1, q2, q3⟩

theorem NA.pure (b : β) : NA (Pure.pure b : Prog α β) := trivial
theorem NA.throw (e : Err) : NA (throw e : Prog α β) := trivial
theorem NA.bind {p : Prog α β} {f : β → Prog α γ} (h1 : NA p) (h2 : ∀ b, NA (f b)) : NA (p >>= f) := by
  show NA (p.bind f)
  induction p with
  | ret b => exact h2 b
  | fail e => trivial
  | acc a k ih => exact ⟨h1.1, fun x => ih x (h1.2 x)⟩
theorem NA.ite {P : Prop} [Decidable P] {p q : Prog α β} (h1 : P → NA p) (h2 : ¬ P → NA q) : NA (if P then p else q) := by
  split <;> rename_i h
  · exact h1 h
  · exact h2 h
theorem NA.access {a : Acc α} (ha : a.fixed = true) : NA (access a) := ⟨ha, fun _ => trivial⟩

syntax "na0" : tactic
syntax "na1" : tactic
macro_rules | `(tactic| na0) => `(tactic| assumption)
macro_rules | `(tactic| na0) => `(tactic| exact NA.throw _)
macro_rules | `(tactic| na0) => `(tactic| exact NA.pure _)
macro_rules | `(tactic| na0) => `(tactic| exact NA.access rfl)
macro_rules | `(tactic| na1) => `(tactic| split)
macro_rules | `(tactic| na1) => `(tactic| (with_reducible refine NA.ite (fun _ => ?_) (fun _ => ?_)))
macro_rules | `(tactic| na1) => `(tactic| (with_reducible refine NA.bind ?_ (fun _ => ?_)))
macro_rules | `(tactic| na1) => `(tactic| na0)
macro "na" : tactic => `(tactic| repeat' na1)

theorem na_unwrap (o : Option β) : NA (unwrap o : Prog α β) := by unfold unwrap; na
macro_rules | `(tactic| na0) => `(tactic| exact na_unwrap _)
theorem na_decrRef (v : Nat) : NA (decrRef v : Prog α _) := by unfold decrRef; na
macro_rules | `(tactic| na0) => `(tactic| exact na_decrRef _)
theorem na_dropNode (a : Addr) : NA (dropNode a : Prog α _) := by unfold dropNode; na
macro_rules | `(tactic| na0) => `(tactic| exact na_dropNode _)
theorem na_decLoop (k : Nat) (o : Option Addr) (c : Nat) : NA (decLoop k o c : Prog α _) := by
  induction k generalizing o <;> cases o <;> (unfold decLoop; na; try (all_goals apply_assumption))
macro_rules | `(tactic| na0) => `(tactic| exact na_decLoop _ _ _)
theorem na_decSizes (a : Addr) (d c : Nat) : NA (decSizes a d c : Prog α _) := by unfold decSizes; na
macro_rules | `(tactic| na0) => `(tactic| exact na_decSizes _ _ _)
theorem na_treeFromNode (a : Addr) : NA (treeFromNode a : Prog α _) := by unfold treeFromNode; na
macro_rules | `(tactic| na0) => `(tactic| exact na_treeFromNode _)
theorem na_popFront (a : Addr) : NA (popFront a : Prog α _) := by unfold popFront; na
macro_rules | `(tactic| na0) => `(tactic| exact na_popFront _)
theorem na_dropLoop (k : Nat) (a : Addr) : NA (dropLoop k a : Prog α _) := by
  induction k generalizing a <;> (unfold dropLoop; na; try (all_goals apply_assumption))
macro_rules | `(tactic| na0) => `(tactic| exact na_dropLoop _ _)
theorem na_dropRoot (a : Addr) : NA (dropRoot a : Prog α _) := by unfold dropRoot; na
macro_rules | `(tactic| na0) => `(tactic| exact na_dropRoot _)
theorem na_intoIterDropLoop (k : Nat) (a : Addr) : NA (intoIterDropLoop k a : Prog α _) := by
  induction k generalizing a <;> (unfold intoIterDropLoop; na; try (all_goals apply_assumption))
macro_rules | `(tactic| na0) => `(tactic| exact na_intoIterDropLoop _ _)
theorem na_intoIterDrop (a : Addr) : NA (intoIterDrop a : Prog α _) := by unfold intoIterDrop; na

end Fine
end Trees
