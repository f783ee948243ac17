import Verif.Proof.ReenterDrop
/-
Programs whose destructors use the crate: the machine matches the specification.
-/
namespace Trees
set_option linter.unusedSimpArgs false
set_option linter.unusedVariables false
variable {α β γ : Type}

/-- Variables that are gone stay gone, and there is nothing in variables not yet made. -/
def StaysGone (S S' : Store α) : Prop := S.fresh ≤ S'.fresh ∧ ∀ x, (x < S.fresh ∨ S'.fresh ≤ x) → S.vars x = none → S'.vars x = none

theorem StaysGone.refl (S : Store α) : StaysGone S S := ⟨Nat.le_refl _, fun _ _ h => h⟩
theorem StaysGone.trans {S S' S'' : Store α} (h : StaysGone S S') (h' : StaysGone S' S'') : StaysGone S S'' :=
  ⟨Nat.le_trans h.1 h'.1, fun x hx e => by
    rcases hx with hx | hx
    · exact h'.2 x (.inl (Nat.lt_of_lt_of_le hx h.1)) (h.2 x (.inl hx) e)
    · exact h'.2 x (.inr hx) (h.2 x (.inr (Nat.le_trans h'.1 hx)) e)⟩
theorem StaysGone.drop {S S' : Store α} {ds : List α} (h : StaysGone (S.drop ds) S') : StaysGone S S' := h
theorem StaysGone.dropR {S S' : Store α} {ds : List α} (h : StaysGone S S') : StaysGone S (S'.drop ds) := h
theorem StaysGone.set_none {S : Store α} {x : Var} : StaysGone S (S.set x none) :=
  ⟨Nat.le_refl _, fun z hz e => by simp only [Store.set]; split; rfl; exact e⟩
theorem StaysGone.set_some {S : Store α} {x : Var} {v w : Val α} (h : S.vars x = some w) : StaysGone S (S.set x (some v)) :=
  ⟨Nat.le_refl _, fun z hz e => by
    simp only [Store.set]; split
    · rename_i h1; rw [h1, h] at e; cases e
    · exact e⟩
theorem StaysGone.setKids {S : Store α} {x : Var} {v w : Val α} {p : Path} {f : List (RTree α) → List (RTree α)} (h : S.vars x = some w) :
    StaysGone S (S.setKids x v p f) := StaysGone.set_some h
theorem StaysGone.bind {S : Store α} {v : Val α} : StaysGone S (S.bind v) :=
  ⟨Nat.le_succ _, fun z hz e => by
    simp only [Store.bind]; split
    · rename_i h; rw [h] at hz; rcases hz with hz | hz; exact absurd hz (Nat.lt_irrefl _); exact absurd hz (Nat.not_succ_le_self _)
    · exact e⟩
theorem StaysGone.bindR {S S' : Store α} {v : Val α} (h : StaysGone S S') : StaysGone S (S'.bind v) := h.trans .bind

/-- The stores a call may leave. -/
def Outcome.All {σ : Type} (Q : σ → Prop) : Outcome σ α → Prop
  | .ok s _ => Q s
  | .panic s => Q s
  | _ => True

theorem keeps_onKids {S S0 : Store α} {x : Var} {p : Path} {k : Val α → List (RTree α) → Outcome (Store α) α} (h0 : StaysGone S0 S)
    (hk : ∀ v us, S.vars x = some v → (k v us).All (StaysGone S0)) : (S.onKids x p k).All (StaysGone S0) := by
  unfold Store.onKids
  cases h : S.vars x with
  | none => trivial
  | some v =>
    dsimp only
    split
    · trivial
    · split
      · exact h0
      · exact hk v _ h

theorem keeps_onNode {S S0 : Store α} {x : Var} {l : Loc} {r : Val α → RTree α → Outcome (Store α) α}
    {k : Val α → Path → Nat → List (RTree α) → RTree α → Outcome (Store α) α} (h0 : StaysGone S0 S)
    (hr : ∀ v t, S.vars x = some v → (r v t).All (StaysGone S0))
    (hk : ∀ v q i us t, S.vars x = some v → (k v q i us t).All (StaysGone S0)) : (S.onNode x l r k).All (StaysGone S0) := by
  unfold Store.onNode
  cases h : S.vars x with
  | none => trivial
  | some v =>
    dsimp only
    split
    · trivial
    · cases l with
      | root => cases v <;> first | exact hr _ _ h | trivial
      | child q i =>
        dsimp only
        split
        · exact h0
        · split
          · exact h0
          · exact hk _ _ _ _ _ h

theorem keeps_takeTree {S S0 : Store α} {x y : Var} {k : RTree α → Outcome (Store α) α} 
    (hk : ∀ t, x ≠ y → (k t).All (StaysGone S0)) : (S.takeTree x y k).All (StaysGone S0) := by
  unfold Store.takeTree
  split
  · trivial
  · rename_i h; split
    · exact hk _ h
    · trivial

theorem keeps_takeForest {S S0 : Store α} {x y : Var} {k : List (RTree α) → Outcome (Store α) α} 
    (hk : ∀ t, x ≠ y → (k t).All (StaysGone S0)) : (S.takeForest x y k).All (StaysGone S0) := by
  unfold Store.takeForest
  split
  · trivial
  · rename_i h; split
    · exact hk _ h
    · trivial

theorem set_vars_ne {S : Store α} {x y : Var} {v : Option (Val α)} (h : x ≠ y) : (S.set y v).vars x = S.vars x := if_neg h

theorem spec_keeps (S : Store α) (op : Op α) : (specStep S op).All (StaysGone S) := by
  cases op
  case treeNew d | forestNew => exact StaysGone.bind
  case treeFromTuple t | forestFromTuple t =>
    simp only [specStep]; split
    · exact StaysGone.bind
    · trivial
  case pushFront x p y | pushBack x p y =>
    refine keeps_takeTree fun t hne => keeps_onKids (.refl _) fun v us hx => ?_
    exact StaysGone.set_none.trans (.setKids (w := v) (by rw [set_vars_ne hne]; exact hx))
  case prepend x p y | append x p y =>
    refine keeps_takeForest fun t hne => keeps_onKids (.refl _) fun v us hx => ?_
    exact StaysGone.set_none.trans (.setKids (w := v) (by rw [set_vars_ne hne]; exact hx))
  case insertPrevSib x p y | insertNextSib x p y =>
    refine keeps_takeTree fun t hne => keeps_onNode (.refl _) (fun v t hx => ?_) fun v q i us t hx => ?_
    · exact StaysGone.set_none
    · exact StaysGone.set_none.trans (.setKids (w := v) (by rw [set_vars_ne hne]; exact hx))
  case popFront x p =>
    refine keeps_onKids (.refl _) fun v us hx => ?_
    cases us with
    | nil => exact StaysGone.refl _
    | cons t ts => exact (StaysGone.setKids hx).bindR
  case popBack x p =>
    refine keeps_onKids (.refl _) fun v us hx => ?_
    split
    · exact StaysGone.refl _
    · exact (StaysGone.setKids hx).bindR
  case detach x l =>
    refine keeps_onNode (.refl _) (fun _ _ _ => StaysGone.refl _) fun v q i us t hx => ?_
    exact (StaysGone.setKids hx).bindR
  case mapBfs x l f =>
    exact keeps_onNode (.refl _) (fun _ _ _ => StaysGone.bind) fun v q i us t hx => StaysGone.bind
  case mapBfsForest x l f =>
    exact keeps_onKids (.refl _) fun v us hx => StaysGone.bind
  case setData x l d =>
    exact keeps_onNode (.refl _) (fun _ _ hx => StaysGone.set_some hx) fun v q i us t hx => StaysGone.setKids hx
  case bfsMut x l k f =>
    exact keeps_onNode (.refl _) (fun _ _ hx => StaysGone.set_some hx) fun v q i us t hx => StaysGone.setKids hx
  case data x l | bfs x l k =>
    exact keeps_onNode (.refl _) (fun _ _ hx => StaysGone.refl _) fun v q i us t hx => StaysGone.refl _
  case bfsChildrenMut x p k f => exact keeps_onKids (.refl _) fun v us hx => StaysGone.setKids hx
  case degree x p | nodeCount x p | hasNoChild x p | childData x p | frontData x p | backData x p | bfsChildren x p k =>
    exact keeps_onKids (.refl _) fun v us hx => StaysGone.refl _
  case abandon x | drop x | intoIter x | iterNext x | iterLen x | rebuild x f | intoBfs x k =>
    simp only [specStep]
    cases hx : S.vars x with
    | none => trivial
    | some v =>
      cases v with
      | tree t => first
        | exact (StaysGone.set_some hx).bindR
        | exact StaysGone.set_none
        | exact (StaysGone.set_none).bindR
        | trivial
      | forest ts => first
        | exact StaysGone.set_none
        | exact (StaysGone.set_none).bindR
        | trivial
      | iter ts => first
        | trivial
        | exact StaysGone.refl _
        | exact StaysGone.set_none
        | (cases ts <;> first | exact StaysGone.refl _ | exact (StaysGone.set_some hx).bindR)

/-- The run of the crate matches the run of the specification. -/
def RSim (S0 : Store α) (P : List Handle) (V : List (Val α)) : Run (Machine α) → Run (Store α) → Prop
  | .done m, .done S => m.store = S ∧ Pend m P V ∧ StaysGone S0 S
  | .deep, .deep => True
  | _, _ => False

theorem RSim.bind {S0 : Store α} {P P' : List Handle} {V V' : List (Val α)} {A : Run (Machine α)} {B : Run (Store α)}
    {f : Machine α → Run (Machine α)} {g : Store α → Run (Store α)} (h : RSim S0 P' V' A B)
    (hf : ∀ m, Pend m P' V' → StaysGone S0 m.store → RSim m.store P V (f m) (g m.store)) : RSim S0 P V (A.bind f) (B.bind g) := by
  cases A <;> cases B <;> simp only [RSim] at h
  · obtain ⟨rfl, h2, h3⟩ := h
    have := hf _ h2 h3
    simp only [Run.bind]
    revert this
    cases f _ <;> cases g _ <;> simp only [RSim] <;> intro h
    · exact ⟨h.1, h.2.1, h3.trans h.2.2⟩
    all_goals exact h
  · trivial

theorem RSim.mono {S0 S1 : Store α} {P : List Handle} {V : List (Val α)} {A : Run (Machine α)} {B : Run (Store α)} (h : RSim S1 P V A B)
    (hk : StaysGone S0 S1) : RSim S0 P V A B := by
  cases A <;> cases B <;> simp only [RSim] at h ⊢
  exact ⟨h.1, h.2.1, hk.trans h.2.2⟩

theorem destroyItems_append {D : α → Store α → Run (Store α)} (xs ys : List α) (S : Store α) :
    destroyItems D (xs ++ ys) S = (destroyItems D xs S).bind (destroyItems D ys) := by
  induction xs generalizing S with
  | nil => rfl
  | cons x xs ih =>
    simp only [List.cons_append, destroyItems]
    cases D x (S.drop [x]) with
    | done S' => exact ih S'
    | bad => rfl
    | deep => rfl

/-- The destructor of the crate's run and of the specification. -/
def DSim (D : α → Machine α → Run (Machine α)) (DS : α → Store α → Run (Store α)) : Prop :=
  ∀ d m P V, Pend m P V → RSim m.store P V (D d m) (DS d m.store)

section
variable {D : α → Machine α → Run (Machine α)} {DS : α → Store α → Run (Store α)}

theorem Store.drop_nil (S : Store α) : S.drop [] = S := by simp [Store.drop]

theorem destroyed_ok (hD : DSim D DS) {m : Machine α} {P : List Handle} {V : List (Val α)} (p : Pend m P V) {S : Store α} {ds : List α}
    (hds : ds.length ≤ 1) (hS : m.store = S.drop ds) : RSim S P V (destroyed D ds m) (destroyItems DS ds S) := by
  cases ds with
  | nil => exact ⟨by rw [hS, Store.drop_nil], p, by exact StaysGone.refl _⟩
  | cons d ds =>
    cases ds with
    | nil =>
      simp only [destroyed, destroyItems]
      rw [← hS]
      have h1 := hD d m P V p
      have h2 : RSim m.store P V ((D d m).bind (destroyed D [])) ((DS d m.store).bind (destroyItems DS [])) :=
        h1.bind fun m' p' _ => ⟨rfl, p', .refl _⟩
      refine h2.mono ?_
      rw [hS]; exact (StaysGone.refl _).dropR
    | cons e es => simp at hds

theorem Val.own_len (v : Val α) : v.own.length ≤ 1 := by cases v <;> simp [Val.own]

theorem kids_setKids (v : Val α) (ts : List (RTree α)) : (v.setKids ts).kids = ts := by cases v <;> rfl
theorem own_setKids (v : Val α) (ts : List (RTree α)) : (v.setKids ts).own = v.own := by cases v <;> rfl

theorem post_cons {v : Val α} {t : RTree α} {ts : List (RTree α)} (h : v.kids = t :: ts) : v.post = t.post ++ (v.setKids ts).post := by
  rw [v.post_own, (v.setKids ts).post_own, kids_setKids, own_setKids, h]
  simp

theorem dropLoopR_ok (hD : DSim D DS) : ∀ (k : Nat) {m : Machine α} {hd : Handle} {v : Val α} {P : List Handle} {V : List (Val α)},
    Pend m (hd :: P) (v :: V) → hd.isIter = false → RTree.countL v.kids < k →
    RSim m.store P V (dropLoopR D k hd.addr m) (destroyItems DS v.post m.store) := by
  intro k
  induction k with
  | zero => intro _ _ _ _ _ _ _ h; exact absurd h (Nat.not_lt_zero _)
  | succ k ih =>
    intro m hd v P V p hit hk
    cases hv : v.kids with
    | nil =>
      have e1 := p.pop_nil hv
      obtain ⟨h', e2, e3, p', e4⟩ := p.free hit hv
      simp only [dropLoopR, e1, e2]
      rw [e3, List.drop_left, v.post_own, hv]
      exact destroyed_ok hD p' v.own_len e4
    | cons t ts =>
      obtain ⟨c, h', e1, e2, p', e4⟩ := p.pop_cons hit hv
      simp only [dropLoopR, e1]
      rw [post_cons hv, destroyItems_append, ← e4]
      have hc : RTree.countL v.kids = t.count + RTree.countL ts := by rw [hv]; simp
      have ht : t.count = 1 + RTree.countL t.kids := by cases t; simp [RTree.kids]; omega
      have h1 := ih (hd := .tree c) (v := .tree t) p' rfl (by show RTree.countL t.kids < k; omega)
      refine h1.bind fun m2 p2 _ => ?_
      exact ih p2 hit (by rw [kids_setKids]; omega)

theorem dropRootR_ok (hD : DSim D DS) {m : Machine α} {hd : Handle} {v : Val α} {P : List Handle} {V : List (Val α)}
    (p : Pend m (hd :: P) (v :: V)) (hit : hd.isIter = false) :
    RSim m.store P V (dropRootR D hd.addr m) (destroyItems DS v.post m.store) :=
  dropLoopR_ok hD _ p hit (by rw [p.desc.1]; exact Nat.lt_succ_self _)

theorem iterDropLoopR_ok (hD : DSim D DS) {f : Addr} : ∀ (k : Nat) {m : Machine α} {ts : List (RTree α)} {P : List Handle} {V : List (Val α)},
    Pend m (.forest f :: P) (.forest ts :: V) → ts.length < k →
    RSim m.store (.forest f :: P) (.forest [] :: V) (iterDropLoopR D k f m) (destroyItems DS (RTree.postL ts) m.store) := by
  intro k
  induction k with
  | zero => intro _ _ _ _ _ h; exact absurd h (Nat.not_lt_zero _)
  | succ k ih =>
    intro m ts P V p hk
    cases ts with
    | nil =>
      have e1 := p.pop_nil rfl
      simp only [Handle.addr] at e1
      simp only [iterDropLoopR, e1]
      exact ⟨rfl, p, .refl _⟩
    | cons t ts =>
      obtain ⟨c, h', e1, e2, p', e4⟩ := p.pop_cons rfl rfl
      simp only [Handle.addr] at e1
      simp only [iterDropLoopR, e1]
      rw [show RTree.postL (t :: ts) = t.post ++ RTree.postL ts by simp, destroyItems_append, ← e4]
      refine (dropRootR_ok hD (hd := .tree c) (v := .tree t) p' rfl).bind fun m2 p2 _ => ?_
      exact ih p2 (by simp at hk; exact hk)

theorem intoIterDropR_ok (hD : DSim D DS) {f : Addr} {m : Machine α} {ts : List (RTree α)} {P : List Handle} {V : List (Val α)}
    (p : Pend m (.iter f :: P) (.iter ts :: V)) :
    RSim m.store P V (intoIterDropR D f m) (destroyItems DS (RTree.postL ts) m.store) := by
  have p := p.forest
  have h1 := iterDropLoopR_ok hD ((m.heap.size f).degree + 1) p (by
    have := p.desc.2
    simp only [Handle.addr, Val.kids] at this
    omega)
  have h2 := h1.bind (f := dropRootR D f) (g := destroyItems DS []) (P := P) (V := V)
    fun m2 p2 _ => dropRootR_ok hD (hd := .forest f) (v := .forest []) p2 rfl
  rw [← destroyItems_append, List.append_nil] at h2
  exact h2

/-- The result of a call. -/
def OSim (S0 : Store α) (P : List Handle) (V : List (Val α)) : Run (Outcome (Machine α) α) → Run (Outcome (Store α) α) → Prop
  | .done (.ok m o), .done (.ok S o') => o = o' ∧ m.store = S ∧ Pend m P V ∧ StaysGone S0 S
  | .done (.panic m), .done (.panic S) => m.store = S ∧ Pend m P V ∧ StaysGone S0 S
  | .done .rejected, .done .rejected => True
  | .deep, .deep => True
  | _, _ => False

theorem RSim.ok {S0 : Store α} {P : List Handle} {V : List (Val α)} {A : Run (Machine α)} {B : Run (Store α)} (h : RSim S0 P V A B) {o : Out α} :
    OSim S0 P V (A.map fun m => .ok m o) (B.map fun S => .ok S o) := by
  cases A <;> cases B <;> simp only [RSim] at h <;> simp only [Run.map, OSim]
  exact ⟨trivial, h⟩

theorem RSim.panic {S0 : Store α} {P : List Handle} {V : List (Val α)} {A : Run (Machine α)} {B : Run (Store α)} (h : RSim S0 P V A B) :
    OSim S0 P V (A.map .panic) (B.map .panic) := by
  cases A <;> cases B <;> simp only [RSim] at h <;> simp only [Run.map, OSim]
  exact h

theorem PSim.osim {S0 : Store α} {P : List Handle} {V : List (Val α)} {A : Outcome (Machine α) α} {B : Outcome (Store α) α} (h : PSim P V A B)
    (hk : B.All (StaysGone S0)) : OSim S0 P V (.done A) (.done B) := by
  cases A <;> cases B <;> simp only [PSim] at h <;> simp only [OSim]
  · exact ⟨h.1, h.2.1, h.2.2, hk⟩
  · exact ⟨h.1, h.2, hk⟩

theorem lt_fresh {m : Machine α} {P : List Handle} {V : List (Val α)} (p : Pend m P V) {x : Var} {hd : Handle} (h : m.env x = some hd) : x < m.fresh := by
  apply Nat.lt_of_not_le
  intro hx
  rw [p.fr x hx] at h; cases h

/-- The borrowed value is given back. -/
theorem give_back {S0 S1 : Store α} {P : List Handle} {V : List (Val α)} {hd : Handle} {v : Val α} {x : Var} {A : Run (Machine α)} {B : Run (Store α)}
    (h : RSim S1 (hd :: P) (v :: V) A B) (hx : S1.vars x = none) (hl : x < S1.fresh) (h0 : S0.vars x = some v) (hk : StaysGone S0 S1) :
    RSim S0 P V (A.map fun m' => { m' with env := m'.setEnv x (some hd) }) (B.map fun S' => S'.set x (some v)) := by
  cases A <;> cases B <;> simp only [RSim, Run.map] at h ⊢
  obtain ⟨rfl, p2, hk2⟩ := h
  rename_i m2
  have hn2 := hk2.2 x (.inl hl) hx
  have hl2 := Nat.lt_of_lt_of_le hl hk2.1
  have hm2 : m2.env x = none := by
    cases h : m2.env x with
    | none => rfl
    | some hd' =>
      obtain ⟨w, e, -⟩ := p2.take h
      rw [hn2] at e; cases e
  obtain ⟨p3, e3⟩ := p2.give (x := x) hm2 hl2
  have hk3 := hk.trans hk2
  refine ⟨e3, p3, hk3.1, fun z hz hz0 => ?_⟩
  have hzx : z ≠ x := by rintro rfl; rw [h0] at hz0; cases hz0
  rw [set_vars_ne hzx]
  exact hk3.2 z hz hz0

/-- Code that runs while a variable is borrowed. -/
theorem borrowing_ok {m : Machine α} {P : List Handle} {V : List (Val α)} (p : Pend m P V) {x : Var} {hd : Handle} (hx : m.env x = some hd)
    {f : Machine α → Run (Machine α)} {g : Store α → Run (Store α)} (hf : ∀ m' P' V', Pend m' P' V' → RSim m'.store P' V' (f m') (g m'.store)) :
    RSim m.store P V (m.borrowing x f) (m.store.borrowing x g) := by
  obtain ⟨v, e1, p', e2⟩ := p.take hx
  have h1 := hf _ _ _ p'
  unfold Machine.borrowing Store.borrowing
  rw [← e2, e1, hx]
  refine give_back h1 (by rw [e2]; simp [Store.set]) (lt_fresh p hx) e1 (by rw [e2]; exact .set_none)

theorem upd_swap {e : Var → Option γ} {x y : Var} (h : x ≠ y) : upd (upd e y none) x none = upd (upd e x none) y none := by
  funext z; simp only [upd]; split <;> split <;> rfl

/-- A value is dropped while a variable is borrowed. -/
theorem borrow_drop_ok {m : Machine α} {P : List Handle} {V : List (Val α)} (p : Pend m P V) {x y : Var} {hx hy : Handle} {v : Val α} (ex : m.env x = some hx)
    (ey : m.env y = some hy) (ev : m.store.vars y = some v) (hne : x ≠ y) {f : Machine α → Run (Machine α)} {g : Store α → Run (Store α)}
    (hf : ∀ m' P' V', Pend m' (hy :: P') (v :: V') → RSim m'.store P' V' (f m') (g m'.store)) :
    RSim m.store P V (Machine.borrowing { m with env := m.setEnv y none } x f) ((m.store.set y none).borrowing x g) := by
  obtain ⟨vx, e1, p1, e2⟩ := p.take ex
  have ey1 : ({ m with env := m.setEnv x none } : Machine α).env y = some hy := by
    show upd _ _ _ _ = _
    rw [upd_of_ne _ _ (Ne.symm hne)]; exact ey
  obtain ⟨vy, e3, p2, e4⟩ := p1.take ey1
  have : vy = v := by
    rw [e2, set_vars_ne (Ne.symm hne), ev] at e3; exact (Option.some.inj e3).symm
  subst this
  have h1 := hf _ _ _ p2
  have e5 : (m.store.set y none).vars x = some vx := by rw [set_vars_ne hne]; exact e1
  have e6 : ({ m with env := m.setEnv y none } : Machine α).env x = some hx := by
    show upd _ _ _ _ = _
    rw [upd_of_ne _ _ hne]; exact ex
  have hs : ∀ S : Store α, (S.set y none).set x none = (S.set x none).set y none := by
    intro S; simp only [Store.set_eq]; rw [upd_swap hne]
  have hm : ({ m with env := Machine.setEnv { m with env := m.setEnv y none } x none } : Machine α) =
      { m with env := Machine.setEnv { m with env := m.setEnv x none } y none } := by
    simp only [Machine.setEnv]; rw [upd_swap hne]
  unfold Machine.borrowing Store.borrowing
  rw [e5, e6, hs, ← e2, ← e4]
  rw [show ({ ({ m with env := m.setEnv y none } : Machine α) with env := Machine.setEnv { m with env := m.setEnv y none } x none } : Machine α) = _ from hm]
  refine give_back h1 ?_ (lt_fresh p ex) e1 ?_
  · rw [e4, e2, set_vars_ne hne]; simp [Store.set]
  · rw [e4, e2]; exact StaysGone.set_none.trans .set_none

theorem spec_setData (S : Store α) (x : Var) (l : Loc) (d : α) : (specStep S (.setData x l d) = .rejected) ∨
    (specStep S (.setData x l d) = .ok S .absent ∧ specStep S (.data x l) = .ok S .absent) ∨
    ∃ S' old w, specStep S (.setData x l d) = .ok S' .unit ∧ specStep S (.data x l) = .ok S (.item (some old)) ∧ S'.dropped = S.dropped ++ [old] ∧
      S'.vars x = some w := by
  simp only [specStep, Store.onNode]
  cases S.vars x with
  | none => exact .inl rfl
  | some v =>
    dsimp only
    split
    · exact .inl rfl
    · cases l with
      | root =>
        cases v with
        | tree t => exact .inr (.inr ⟨_, _, .tree (.node d t.kids), rfl, rfl, rfl, by simp [Store.drop, Store.set]⟩)
        | forest ts => exact .inl rfl
        | iter ts => exact .inl rfl
      | child q i =>
        dsimp only
        cases kidsAt v.kids q with
        | none => exact .inr (.inl ⟨rfl, rfl⟩)
        | some us =>
          dsimp only
          cases us[i]? with
          | none => exact .inr (.inl ⟨rfl, rfl⟩)
          | some t => exact .inr (.inr ⟨_, _, _, rfl, rfl, rfl, by simp [Store.drop, Store.setKids, Store.set]; rfl⟩)

theorem spec_sib_panic {S : Store α} {x y : Var} {l : Loc} {q : Bool} {S' : Store α}
    (h : specStep S (if q then .insertPrevSib x l y else .insertNextSib x l y) = .panic S') :
    x ≠ y ∧ (∃ v, S.vars x = some v) ∧ ∃ t, S.vars y = some (.tree t) := by
  have key : ∀ k : RTree α → Val α → Path → Nat → List (RTree α) → RTree α → Outcome (Store α) α, (S.takeTree x y fun t => S.onNode x l (fun _ _ => .panic ((S.set y none).drop t.post)) (k t)) = .panic S' →
      (∀ t v q i us t' S', k t v q i us t' ≠ .panic S') → x ≠ y ∧ (∃ v, S.vars x = some v) ∧ ∃ t, S.vars y = some (.tree t) := by
    intro k h hk
    unfold Store.takeTree at h
    split at h
    · cases h
    · rename_i hne
      split at h
      · rename_i t ht
        unfold Store.onNode at h
        cases hv : S.vars x with
        | none => rw [hv] at h; cases h
        | some v => exact ⟨hne, ⟨v, rfl⟩, t, ht⟩
      · cases h
  cases q
  · exact key _ h (by intros; simp)
  · exact key _ h (by intros; simp)

theorem env_of {m : Machine α} {P : List Handle} {V : List (Val α)} (p : Pend m P V) {x : Var} {v : Val α} (h : m.store.vars x = some v) :
    ∃ hd, m.env x = some hd := by
  cases he : m.env x with
  | none =>
    have h5 : m.view x = some v := h
    rw [view_hread, he] at h5; cases h5
  | some hd => exact ⟨hd, rfl⟩

theorem tree_handle {m : Machine α} {P : List Handle} {V : List (Val α)} {hd : Handle} {t : RTree α} (p : Pend m (hd :: P) (.tree t :: V)) :
    hd.isIter = false := by
  obtain ⟨K, M, ho, hden⟩ := p.top
  exact hden.isIter

theorem stepR_ok (hD : DSim D DS) {m : Machine α} {P : List Handle} {V : List (Val α)} (p : Pend m P V) (op : Op α) :
    OSim m.store P V (stepR D m op) (specStepR DS m.store op) := by
  have hc := (p.call op).osim (spec_keeps _ op)
  cases op with
  | drop x =>
    simp only [stepR, specStepR]
    cases hx : m.env x with
    | none =>
      have : m.store.vars x = none := by show m.view x = none; rw [view_hread, hx]; rfl
      rw [this]; trivial
    | some hd =>
      obtain ⟨v, e1, p', e2⟩ := p.take hx
      obtain ⟨K, M, ho, hden⟩ := p'.top
      rw [e1, ← e2]
      have hkp : StaysGone m.store ({ m with env := m.setEnv x none } : Machine α).store := by rw [e2]; exact StaysGone.set_none
      cases hd with
      | tree r => exact ((dropRootR_ok hD p' rfl).mono hkp).ok
      | forest r => exact ((dropRootR_ok hD p' rfl).mono hkp).ok
      | iter r =>
        cases v with
        | tree t => exact hden.elim
        | forest t => exact hden.elim
        | iter ts => exact ((intoIterDropR_ok hD p').mono hkp).ok
  | setData x l d =>
    simp only [stepR, specStepR]
    have hpc := p.call (.setData x l d)
    rcases spec_setData m.store x l d with h | ⟨h1, h2⟩ | ⟨S', old, w, h1, h2, h3, h4⟩
    · rw [h] at hpc hc ⊢
      cases hs : step m (.setData x l d) <;> rw [hs] at hpc <;> simp only [PSim] at hpc
      cases specStep m.store (.data x l) with
      | ok a b => cases b <;> (try rename_i o; cases o) <;> trivial
      | _ => trivial
    · rw [h1] at hpc hc ⊢
      rw [h2]
      cases hs : step m (.setData x l d) <;> rw [hs] at hpc <;> simp only [PSim] at hpc
      obtain ⟨rfl, h3, h4⟩ := hpc
      exact ⟨rfl, h3, h4, .refl _⟩
    · rw [h1] at hpc hc ⊢
      rw [h2]
      cases hs : step m (.setData x l d) <;> rw [hs] at hpc <;> simp only [PSim] at hpc
      rename_i m' o
      obtain ⟨rfl, e3, p'⟩ := hpc
      subst e3
      have hlog : m'.heap.log = m.heap.log ++ [old] := h3
      have hme : ∃ hd, m'.env x = some hd := by
        cases h : m'.env x with
        | none =>
          have h5 : m'.view x = some w := h4
          rw [view_hread, h] at h5; cases h5
        | some hd => exact ⟨hd, rfl⟩
      obtain ⟨hd, hme⟩ := hme
      dsimp only
      rw [hlog, List.drop_left]
      have hb := borrowing_ok p' hme (f := destroyed D [old]) (g := DS old) fun m1 P1 V1 p1 => by
        have := (hD old m1 P1 V1 p1).bind (f := .done) (g := .done) (P := P1) (V := V1) fun m' p' _ => ⟨rfl, p', .refl _⟩
        have e : (DS old m1.store).bind .done = DS old m1.store := by cases DS old m1.store <;> rfl
        rw [e] at this
        exact this
      have hk := spec_keeps m.store (.setData x l d)
      rw [h1] at hk
      exact (hb.mono hk).ok
  | insertPrevSib x l y =>
    simp only [stepR, specStepR]
    have hpc := p.call (.insertPrevSib x l y)
    cases hsp : specStep m.store (.insertPrevSib x l y) with
    | panic S' =>
      obtain ⟨hne, ⟨vx, hvx⟩, t, hvy⟩ := spec_sib_panic (q := true) hsp
      rw [hsp] at hpc
      cases hs : step m (.insertPrevSib x l y) <;> rw [hs] at hpc <;> simp only [PSim] at hpc
      obtain ⟨hx, ex⟩ := env_of p hvx
      obtain ⟨hy, ey⟩ := env_of p hvy
      rw [ey, hvy]
      exact (borrow_drop_ok p ex ey hvy hne fun m' P' V' p' => dropRootR_ok hD p' (tree_handle p')).panic
    | _ =>
      rw [hsp] at hpc hc
      cases hs : step m (.insertPrevSib x l y) <;> rw [hs] at hpc hc <;> simp only [PSim] at hpc
      all_goals
        cases m.env y <;> cases m.store.vars y <;> exact hc
  | insertNextSib x l y =>
    simp only [stepR, specStepR]
    have hpc := p.call (.insertNextSib x l y)
    cases hsp : specStep m.store (.insertNextSib x l y) with
    | panic S' =>
      obtain ⟨hne, ⟨vx, hvx⟩, t, hvy⟩ := spec_sib_panic (q := false) hsp
      rw [hsp] at hpc
      cases hs : step m (.insertNextSib x l y) <;> rw [hs] at hpc <;> simp only [PSim] at hpc
      obtain ⟨hx, ex⟩ := env_of p hvx
      obtain ⟨hy, ey⟩ := env_of p hvy
      rw [ey, hvy]
      exact (borrow_drop_ok p ex ey hvy hne fun m' P' V' p' => dropRootR_ok hD p' (tree_handle p')).panic
    | _ =>
      rw [hsp] at hpc hc
      cases hs : step m (.insertNextSib x l y) <;> rw [hs] at hpc hc <;> simp only [PSim] at hpc
      all_goals
        cases m.env y <;> cases m.store.vars y <;> exact hc
  | _ => exact hc

/-- The result of a program. -/
def XSim (S0 : Store α) (P : List Handle) (V : List (Val α)) :
    Run (Machine α × List (Outcome Unit α)) → Run (Store α × List (Outcome Unit α)) → Prop
  | .done (m, os), .done (S, os') => (os = os' ∧ ∀ o ∈ os, o ≠ .bad) ∧ m.store = S ∧ Pend m P V ∧ StaysGone S0 S
  | .deep, .deep => True
  | _, _ => False

theorem XSim.cons {S0 : Store α} {P : List Handle} {V : List (Val α)} {A : Run (Machine α × List (Outcome Unit α))} {B : Run (Store α × List (Outcome Unit α))}
    {S1 : Store α} (h : XSim S1 P V A B) (hk : StaysGone S0 S1) (o : Outcome Unit α) (ho : o ≠ .bad) :
    XSim S0 P V (A.map fun q => (q.1, o :: q.2)) (B.map fun q => (q.1, o :: q.2)) := by
  cases A <;> cases B <;> simp only [XSim, Run.map] at h ⊢
  refine ⟨⟨by rw [h.1.1], fun o' h' => ?_⟩, h.2.1, h.2.2.1, hk.trans h.2.2.2⟩
  rcases List.mem_cons.mp h' with rfl | h'
  · exact ho
  · exact h.1.2 _ h'

theorem XSim.fst {S0 : Store α} {P : List Handle} {V : List (Val α)} {A : Run (Machine α × List (Outcome Unit α))}
    {B : Run (Store α × List (Outcome Unit α))} (h : XSim S0 P V A B) : RSim S0 P V (A.map Prod.fst) (B.map Prod.fst) := by
  cases A <;> cases B <;> simp only [XSim] at h <;> simp only [Run.map, RSim]
  exact h.2

theorem runOps_ok {st : Machine α → Op α → Run (Outcome (Machine α) α)} {sst : Store α → Op α → Run (Outcome (Store α) α)}
    (hst : ∀ m P V op, Pend m P V → OSim m.store P V (st m op) (sst m.store op)) : ∀ (ops : List (Op α)) {m : Machine α} {P : List Handle} {V : List (Val α)},
    Pend m P V → XSim m.store P V (runOps st m ops) (runOps sst m.store ops) := by
  intro ops
  induction ops with
  | nil => intro m P V p; exact ⟨⟨rfl, by simp⟩, rfl, p, .refl _⟩
  | cons op ops ih =>
    intro m P V p
    have h := hst m P V op p
    simp only [runOps]
    revert h
    generalize st m op = A
    generalize sst m.store op = B
    intro h
    cases A <;> cases B <;> (try cases ‹Outcome (Machine α) α›) <;> (try cases ‹Outcome (Store α) α›) <;> simp only [OSim] at h
    · obtain ⟨rfl, rfl, p', hk⟩ := h
      exact (ih p').cons hk _ (by simp)
    · obtain ⟨rfl, p', hk⟩ := h
      exact (ih p').cons hk _ (by simp)
    · exact (ih p).cons (.refl _) _ (by simp)
    · trivial

theorem execR_ok (dtor : α → List (Op α)) : ∀ (n : Nat) {m : Machine α} {P : List Handle} {V : List (Val α)} (ops : List (Op α)),
    Pend m P V → XSim m.store P V (execR dtor n m ops) (specExecR dtor n m.store ops) := by
  intro n
  induction n with
  | zero =>
    intro m P V ops p
    simp only [execR, specExecR]
    split
    · exact ⟨⟨rfl, by simp⟩, rfl, p, .refl _⟩
    · trivial
  | succ n ih =>
    intro m P V ops p
    refine runOps_ok (fun m P V op p => stepR_ok ?_ p op) ops p
    intro d m P V p
    exact (ih (dtor d) p).fst

end
end Trees
