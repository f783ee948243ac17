import Verif.Model.Walk
import Verif.Proof.Sim
import Verif.Proof.Read
/-
The walk follows its specification.
-/
namespace Trees
set_option linter.unusedSimpArgs false
variable {α β : Type}

namespace Walk

/-- The top level of a walk: a list of siblings in use. -/
structure Top (h : Heap α) (R : List Addr) : Prop where
  used : ∀ a ∈ R, h.Used a
  next : ∀ (i : Nat) (a : Addr), R[i]? = some a → h.next a = R[i+1]?

/-- The list of children of the node at a position. -/
def look (K : Addr → List Addr) (R : List Addr) : Pos → Option (List Addr)
  | [] => some R
  | i :: q => match look K R q with
    | none => none
    | some l => match l[i]? with
      | none => none
      | some a => some (K a)

/-- The node at a position. -/
def nodeOf (K : Addr → List Addr) (R : List Addr) : Pos → Option Addr
  | [] => none
  | i :: q => match look K R q with
    | none => none
    | some l => l[i]?

/-- The stack of a walk at a position. -/
def stk (K : Addr → List Addr) (R : List Addr) : Pos → List Nodes
  | [] => []
  | i :: q => ⟨nodeOf K R (i :: q), none⟩ :: stk K R q

theorem links_next {pv nx : Addr → Option Addr} {ks : List Addr} : ∀ {l : Option Addr}, Links pv nx l ks none →
    ∀ (i : Nat) (a : Addr), ks[i]? = some a → nx a = ks[i+1]? := by
  induction ks with
  | nil => intro l _ i a e; simp at e
  | cons c cs ih =>
    intro l hl i a e
    obtain ⟨_, h2, h3⟩ := hl
    cases i with
    | zero => simp at e; subst e; rw [h2]; cases cs <;> simp
    | succ i => simp at e; rw [ih h3 i a e]; simp

section
variable {h : Heap α} {K : Addr → List Addr} {R : List Addr} {ts : List (RTree α)}

theorem look_top (hI : Inv h K) (T : Top h R) : ∀ (q : Pos) (l : List Addr), look K R q = some l → Top h l := by
  intro q
  induction q with
  | nil => intro l e; simp only [look, Option.some.injEq] at e; subst e; exact T
  | cons i q ih =>
    intro l e
    simp only [look] at e
    cases e1 : look K R q with
    | none => rw [e1] at e; simp at e
    | some l1 =>
      rw [e1] at e
      dsimp only at e
      cases e2 : l1[i]? with
      | none => rw [e2] at e; simp at e
      | some a =>
        rw [e2] at e
        simp only [Option.some.injEq] at e
        subst e
        have hU := (ih l1 e1).used a (List.mem_of_getElem? e2)
        exact ⟨fun c hc => ((hI.l.mem a c).mp hc).1, links_next (hI.l.links a hU)⟩

theorem look_den (D : DenL h.val K R ts) : ∀ (q : Pos),
    (look K R q = none ∧ kidsAt ts q.reverse = none) ∨ ∃ l us, look K R q = some l ∧ kidsAt ts q.reverse = some us ∧ DenL h.val K l us := by
  intro q
  induction q with
  | nil => exact .inr ⟨R, ts, rfl, rfl, D⟩
  | cons i q ih =>
    simp only [List.reverse_cons, kidsAt_append]
    rcases ih with ⟨h1, h2⟩ | ⟨l, us, h1, h2, h3⟩
    · left; simp [look, h1, h2]
    · rcases h3.get i with ⟨h4, h5⟩ | ⟨c, t, h4, h5, h6⟩
      · left; simp [look, h1, h2, h4, kidsAt, h5]
      · right
        refine ⟨K c, t.kids, by simp [look, h1, h4], by simp [h2, kidsAt, h5], ?_⟩
        cases t; exact h6.2

theorem degAt_look (D : DenL h.val K R ts) {q : Pos} {l : List Addr} (e : look K R q = some l) : degAt ts q = l.length := by
  rcases look_den D q with ⟨h1, _⟩ | ⟨l', us, h1, h2, h3⟩
  · rw [e] at h1; simp at h1
  · rw [e] at h1; simp only [Option.some.injEq] at h1; subst h1
    simp [degAt, h2, h3.length]

theorem degAt_node (D : DenL h.val K R ts) {p : Pos} {a : Addr} (e : nodeOf K R p = some a) : degAt ts p = (K a).length := by
  cases p with
  | nil => simp [nodeOf] at e
  | cons i q =>
    simp only [nodeOf] at e
    cases e1 : look K R q with
    | none => rw [e1] at e; simp at e
    | some l => rw [e1] at e; dsimp only at e; exact degAt_look D (by simp [look, e1, e])

theorem nodeOf_look {i : Nat} {q : Pos} {l : List Addr} (e : look K R q = some l) : nodeOf K R (i :: q) = l[i]? := by simp [nodeOf, e]

theorem look_of_node {p : Pos} {a : Addr} (e : nodeOf K R p = some a) : look K R p = some (K a) := by
  cases p with
  | nil => simp [nodeOf] at e
  | cons i q =>
    simp only [nodeOf] at e
    cases e1 : look K R q with
    | none => rw [e1] at e; simp at e
    | some l => rw [e1] at e; dsimp only at e; simp [look, e1, e]

theorem node_cases {i : Nat} {q : Pos} {a : Addr} (e : nodeOf K R (i :: q) = some a) : ∃ l, look K R q = some l ∧ l[i]? = some a := by
  simp only [nodeOf] at e
  cases e1 : look K R q with
  | none => rw [e1] at e; simp at e
  | some l => rw [e1] at e; exact ⟨l, rfl, e⟩

theorem parent_node {i : Nat} {q : Pos} {l : List Addr} (e : look K R (i :: q) = some l) : ∃ a, nodeOf K R (i :: q) = some a := by
  simp only [look] at e
  simp only [nodeOf]
  cases e1 : look K R q with
  | none => rw [e1] at e; simp at e
  | some l1 =>
    rw [e1] at e
    dsimp only at e ⊢
    cases e2 : l1[i]? with
    | none => rw [e2] at e; simp at e
    | some a => exact ⟨a, rfl⟩

/-- The state of a walk and the cursor it implements. -/
def Rel (K : Addr → List Addr) (R : List Addr) (w : Walk) (c : Cur) : Prop :=
  w.origin = R.head? ∧
  match c with
  | .done => w.path = [] ∧ w.direction = .down ∧ w.visitType = .none
  | .at k p => w.path = stk K R p ∧ ∃ a, nodeOf K R p = some a ∧
    match k with
    | .begin => w.visitType = .begin ∧ w.direction = .down ∧ K a ≠ []
    | .stop => w.visitType = .stop ∧ w.direction = .right ∧ K a ≠ []
    | .leaf => w.visitType = .leaf ∧ (w.direction = .down ∨ w.direction = .right) ∧ K a = []
  | .off q d => (∃ l, look K R q = some l ∧ l ≠ []) ∧ w.path = ⟨none, none⟩ :: stk K R q ∧ w.visitType ≠ .none ∧
    w.direction = (if d then .down else .up)

/-- One call with panics caught. -/
def callC (op : WalkOp) : WM α (WalkOut Addr) := fun s => match call op s with
  | .err .panic s' => .ok .panic s'
  | r => r

theorem calls_cons (op : WalkOp) (ops : List WalkOp) : (calls (op :: ops) : WM α _) = (do
    let o ← callC op
    let os ← calls ops
    return o :: os) := rfl

theorem lift_hnc (hI : Inv h K) {a : Addr} (hU : h.Used a) (w : Walk) : WM.lift (hasNoChild a) (h, w) = .ok (K a).isEmpty (h, w) := by
  have : (h.head a).isNone = (K a).isEmpty := by rw [hI.l.head a hU]; cases K a <;> rfl
  rw [WM.lift_ok (hasNoChild_ok hU.1), this]

theorem lift_next {a : Addr} (hU : h.Used a) (w : Walk) : WM.lift (getNext a) (h, w) = .ok (h.next a) (h, w) :=
  WM.lift_ok (getNext_ok hU.1)

theorem lift_head (hI : Inv h K) {a : Addr} (hU : h.Used a) (w : Walk) : WM.lift (getHead a) (h, w) = .ok (K a).head? (h, w) := by
  rw [WM.lift_ok (getHead_ok hU.1), hI.l.head a hU]

theorem lift_ref {a : Addr} (hU : h.Used a) (w : Walk) : WM.lift (refNode a) (h, w) = .ok a (h, w) :=
  WM.lift_ok (by simp [refNode, hU.1])

/-- Kind of the first visit, by the children of the node. -/
theorem first_eq (D : DenL h.val K R ts) {p : Pos} {a : Addr} (e : nodeOf K R p = some a) :
    Cur.first ts p = .at (if (K a).isEmpty then .leaf else .begin) p := by
  simp only [Cur.first, degAt_node D e, List.length_eq_zero_iff, List.isEmpty_iff]

section
variable (hI : Inv h K) (T : Top h R)
include hI T

theorem node_used {p : Pos} {a : Addr} (e : nodeOf K R p = some a) : h.Used a := by
  cases p with
  | nil => simp [nodeOf] at e
  | cons i q =>
    obtain ⟨l, e1, e2⟩ := node_cases e
    exact (look_top hI T q l e1).used a (List.mem_of_getElem? e2)

theorem node_next {i : Nat} {q : Pos} {a : Addr} (e : nodeOf K R (i :: q) = some a) : h.next a = nodeOf K R ((i + 1) :: q) := by
  obtain ⟨l, e1, e2⟩ := node_cases e
  rw [(look_top hI T q l e1).next i a e2, nodeOf_look e1]

/-- `get` at a node. -/
theorem get_at {w : Walk} {k : Kind} {p : Pos} (hr : Rel K R w (.at k p)) :
    ∃ a, nodeOf K R p = some a ∧ get (h, w) = .ok (some (k, a)) (h, w) := by
  obtain ⟨_, hp, a, ha, hk⟩ := hr
  have hU := node_used hI T ha
  refine ⟨a, ha, ?_⟩
  cases p with
  | nil => simp [nodeOf] at ha
  | cons i q =>
    simp only [stk, ha] at hp
    cases k <;> obtain ⟨hv, hd, hK⟩ := hk <;> simp [get, hp, hv, lift_ref hU]

theorem get_rel {w : Walk} {c : Cur} (hr : Rel K R w c) :
    callC .get (h, w) = .ok .panic (h, w) ∧ c.shown = .panic ∨
    ∃ v, get (h, w) = .ok v (h, w) ∧ OutRel (nodeOf K R) c.shown (.visit v) := by
  cases c with
  | done => obtain ⟨_, hp, _⟩ := hr; right; exact ⟨none, by simp [get, hp], trivial⟩
  | «at» k p => obtain ⟨a, ha, e⟩ := get_at hI T hr; right; exact ⟨_, e, rfl, ha⟩
  | off q d =>
    obtain ⟨_, ⟨l, hl⟩, hp, hv, hd⟩ := hr
    left
    refine ⟨?_, rfl⟩
    cases hv' : w.visitType <;> simp [callC, call, get, hp, hv', Res.bind] at hv ⊢

end

def leaveDir : Pos → Direction
  | [] => .down
  | _ :: _ => .right
def leaveVis : Pos → VisitType
  | [] => .none
  | _ :: _ => .stop

/-- Leaving the children of `q`. -/
theorem rel_leave {w : Walk} {q : Pos} {l : List Addr} (e : look K R q = some l) (hl : l ≠ [])
    (ho : w.origin = R.head?) (hp : w.path = stk K R q)
    (hd : w.direction = leaveDir q) (hv : w.visitType = leaveVis q) : Rel K R w (Cur.leave q) := by
  cases q with
  | nil => exact ⟨ho, by simpa [stk] using hp, hd, hv⟩
  | cons i q =>
    obtain ⟨a, ha⟩ := parent_node e
    refine ⟨ho, hp, a, ha, hv, hd, ?_⟩
    rw [look_of_node ha] at e
    simp only [Option.some.injEq] at e
    subst e; exact hl

/-- Arriving at a node. -/
theorem rel_first (D : DenL h.val K R ts) {w : Walk} {p : Pos} {a : Addr} (e : nodeOf K R p = some a)
    (ho : w.origin = R.head?) (hp : w.path = stk K R p) (hv : w.visitType = visitOf (K a).isEmpty)
    (hd : w.direction = .down ∨ (K a = [] ∧ w.direction = .right)) : Rel K R w (Cur.first ts p) := by
  rw [first_eq D e]
  refine ⟨ho, hp, a, e, ?_⟩
  cases hK : K a with
  | nil => rw [hK] at hv; refine ⟨hv, ?_, rfl⟩; rcases hd with h1 | h1 <;> simp [h1]
  | cons b bs =>
    rw [hK] at hv hd
    simp only [reduceCtorEq, false_and, or_false] at hd
    exact ⟨hv, hd, by simp⟩

theorem fwd_up {w : Walk} {n : Nodes} {q : Pos} {l : List Addr} (e : look K R q = some l) (hl : l ≠ [])
    (ho : w.origin = R.head?) (hp : w.path = n :: stk K R q) (hd : w.direction = .up) (k : Nat) :
    ∃ w', forwardLoop (k + 1) (h, w) = .ok () (h, w') ∧ Rel K R w' (Cur.leave q) := by
  refine ⟨{ w with path := stk K R q, direction := leaveDir q, visitType := leaveVis q }, ?_, rel_leave e hl ho rfl rfl rfl⟩
  cases q with
  | nil => simp [forwardLoop, hd, pop, hp, stk, setDir, setVisit, leaveDir, leaveVis]
  | cons i q => simp [forwardLoop, hd, pop, hp, stk, setDir, setVisit, leaveDir, leaveVis]

section
variable (hI : Inv h K) (T : Top h R) (D : DenL h.val K R ts)
include hI T D

theorem fwd_right {w : Walk} {i : Nat} {q : Pos} {a : Addr} (e : nodeOf K R (i :: q) = some a)
    (ho : w.origin = R.head?) (hp : w.path = stk K R (i :: q)) (hd : w.direction = .right) (k : Nat) :
    ∃ w', forwardLoop (k + 2) (h, w) = .ok () (h, w') ∧
      Rel K R w' (if i + 1 < degAt ts q then Cur.first ts ((i + 1) :: q) else Cur.leave q) := by
  have hU := node_used hI T e
  have hn := node_next hI T e
  obtain ⟨l, e1, e2⟩ := node_cases e
  have hdeg := degAt_look D e1
  simp only [stk, e] at hp
  cases hb : nodeOf K R ((i + 1) :: q) with
  | none =>
    rw [nodeOf_look e1] at hb
    have hlen : ¬ i + 1 < degAt ts q := by rw [hdeg]; simpa using hb
    rw [if_neg hlen]
    rw [nodeOf_look e1, hb] at hn
    have hl : l ≠ [] := by rintro rfl; simp at e2
    obtain ⟨w', e3, e4⟩ := fwd_up (h := h) (w := { w with path := ⟨none, none⟩ :: stk K R q, direction := .up }) (n := ⟨none, none⟩)
      e1 hl ho rfl rfl k
    refine ⟨w', ?_, e4⟩
    rw [← e3]
    conv => lhs; rw [forwardLoop]
    simp [hd, hp, lift_next hU, hn, setLast, setDir]
  | some b =>
    have hUb := node_used hI T hb
    have hlen : i + 1 < degAt ts q := by
      rw [nodeOf_look e1] at hb; rw [hdeg]; exact (List.getElem?_eq_some_iff.mp hb).1
    rw [if_pos hlen]
    rw [hb] at hn
    cases hK : K b with
    | nil =>
      refine ⟨_, by simp [forwardLoop, hd, hp, lift_next hU, hn, setLast, setDir, setVisit, lift_hnc hI hUb, hK]; rfl, ?_⟩
      exact rel_first D hb ho (by simp [stk, hb]) (by simp [hK, visitOf]) (.inr ⟨hK, rfl⟩)
    | cons c cs =>
      refine ⟨_, by simp [forwardLoop, hd, hp, lift_next hU, hn, setLast, setDir, setVisit, lift_hnc hI hUb, hK]; rfl, ?_⟩
      exact rel_first D hb ho (by simp [stk, hb]) (by simp [hK, visitOf]) (.inl rfl)

theorem fwd_ok {w : Walk} {c : Cur} (hr : Rel K R w c) (k : Nat) :
    match c.forward ts with
    | some c' => ∃ w', forwardLoop (k + 3) (h, w) = .ok () (h, w') ∧ Rel K R w' c'
    | none => forwardLoop (k + 3) (h, w) = .err .panic (h, w) := by
  cases c with
  | done =>
    obtain ⟨ho, hp, hd, hv⟩ := hr
    exact ⟨w, by simp [forwardLoop, hd, hp], ho, hp, hd, hv⟩
  | off q d =>
    obtain ⟨ho, ⟨l, hl, hne⟩, hp, hv, hd⟩ := hr
    cases d with
    | false => exact fwd_up hl hne ho hp (by simpa using hd) (k + 2)
    | true => simp only [Cur.forward]; simp only [if_true] at hd; simp [forwardLoop, hd, hp]
  | «at» kd p =>
    obtain ⟨ho, hp, a, ha, hk⟩ := hr
    cases p with
    | nil => simp [nodeOf] at ha
    | cons i q =>
      cases kd with
      | begin =>
        obtain ⟨hv, hd, hK⟩ := hk
        simp only [Cur.forward]
        have hU := node_used hI T ha
        cases hK' : K a with
        | nil => exact absurd hK' hK
        | cons b bs =>
          have hb : nodeOf K R (0 :: i :: q) = some b := by rw [nodeOf_look (look_of_node ha), hK']; rfl
          have hUb := node_used hI T hb
          simp only [stk, ha] at hp
          refine ⟨_, by simp [forwardLoop, hd, hp, lift_hnc hI hU, lift_head hI hU, lift_hnc hI hUb, hK', setVisit, push, sibs]; rfl, ?_⟩
          exact rel_first D hb ho (by simp [stk, hb, hp, ha]) rfl (.inl rfl)
      | stop =>
        obtain ⟨hv, hd, hK⟩ := hk
        exact fwd_right hI T D ha ho hp hd (k + 1)
      | leaf =>
        obtain ⟨hv, hd, hK⟩ := hk
        rcases hd with hd | hd
        · have hU := node_used hI T ha
          obtain ⟨w', e1, e2⟩ := fwd_right hI T D ha (w := { w with direction := .right }) ho hp rfl k
          refine ⟨w', ?_, e2⟩
          rw [← e1]
          simp only [stk, ha] at hp
          conv => lhs; rw [forwardLoop]
          simp [hd, hp, lift_hnc hI hU, hK, setDir]
        · exact fwd_right hI T D ha ho hp hd (k + 1)

theorem call_forward {w : Walk} {c : Cur} (hr : Rel K R w c) :
    ∃ o' w', callC .forward (h, w) = .ok o' (h, w') ∧ OutRel (nodeOf K R) (c.call ts .forward).1 o' ∧ Rel K R w' (c.call ts .forward).2 := by
  have h1 := fwd_ok hI T D hr 0
  simp only [Cur.call]
  cases hc : c.forward ts with
  | none => rw [hc] at h1; exact ⟨.panic, w, by simp [callC, call, forward, h1], trivial, hr⟩
  | some c' =>
    rw [hc] at h1
    obtain ⟨w', e1, e2⟩ := h1
    exact ⟨.unit, w', by simp [callC, call, forward, e1], trivial, e2⟩

theorem call_get {w : Walk} {c : Cur} (hr : Rel K R w c) :
    ∃ o' w', callC .get (h, w) = .ok o' (h, w') ∧ OutRel (nodeOf K R) (c.call ts .get).1 o' ∧ Rel K R w' (c.call ts .get).2 := by
  simp only [Cur.call]
  rcases get_rel hI T hr with ⟨e1, e2⟩ | ⟨v, e1, e2⟩
  · exact ⟨.panic, w, e1, by rw [e2]; trivial, hr⟩
  · exact ⟨.visit v, w, by simp [callC, call, e1], e2, hr⟩

theorem call_next {w : Walk} {c : Cur} (hr : Rel K R w c) :
    ∃ o' w', callC .next (h, w) = .ok o' (h, w') ∧ OutRel (nodeOf K R) (c.call ts .next).1 o' ∧ Rel K R w' (c.call ts .next).2 := by
  have h1 := fwd_ok hI T D hr 0
  simp only [Cur.call]
  cases hc : c.forward ts with
  | none => rw [hc] at h1; exact ⟨.panic, w, by simp [callC, call, next, forward, h1], trivial, hr⟩
  | some c' =>
    rw [hc] at h1
    obtain ⟨w', e1, e2⟩ := h1
    rcases get_rel hI T e2 with ⟨e3, e4⟩ | ⟨v, e3, e4⟩
    · refine ⟨.panic, w', ?_, by dsimp only; rw [e4]; trivial, e2⟩
      simp only [callC, call, WM.bind_apply] at e3
      simp only [callC, call, next, forward, WM.bind_apply, e1, Res.bind_ok]
      exact e3
    · exact ⟨.visit v, w', by simp [callC, call, next, forward, e1, e3], e4, e2⟩

/-- Leaving the children of `q`, as `to_parent` does. -/
theorem toParent_leave {w : Walk} {q : Pos} {n : Nodes} {l : List Addr} (e : look K R q = some l) (hl : l ≠ [])
    (ho : w.origin = R.head?) (hp : w.path = n :: stk K R q) :
    ∃ v w', toParent (h, w) = .ok v (h, w') ∧ OutRel (nodeOf K R) (Cur.leave q).shown (.visit v) ∧ Rel K R w' (Cur.leave q) := by
  cases q with
  | nil =>
    refine ⟨none, { w with path := [], direction := .down, visitType := .none }, ?_, trivial, rel_leave (q := []) e hl ho rfl rfl rfl⟩
    simp [toParent, hp, pop, stk, setDir, setVisit]
  | cons i q =>
    have hr : Rel K R { w with path := stk K R (i :: q), direction := .right, visitType := .stop } (Cur.leave (i :: q)) :=
      rel_leave e hl ho rfl rfl rfl
    obtain ⟨a, ha, e1⟩ := get_at hI T hr
    refine ⟨some (.stop, a), { w with path := stk K R (i :: q), direction := .right, visitType := .stop }, ?_, ⟨rfl, ha⟩, hr⟩
    rw [← e1]
    simp [toParent, hp, pop, stk, setDir, setVisit]

theorem call_toParent {w : Walk} {c : Cur} (hr : Rel K R w c) :
    ∃ o' w', callC .toParent (h, w) = .ok o' (h, w') ∧ OutRel (nodeOf K R) (c.call ts .toParent).1 o' ∧ Rel K R w' (c.call ts .toParent).2 := by
  cases c with
  | done =>
    obtain ⟨ho, hp, hd, hv⟩ := hr
    exact ⟨.visit none, { w with direction := .down, visitType := .none }, by simp [callC, call, toParent, hp, setDir, setVisit], trivial, ho, hp, rfl, rfl⟩
  | off q d =>
    obtain ⟨ho, ⟨l, hl, hne⟩, hp, hv, hd⟩ := hr
    obtain ⟨v, w', e1, e2, e3⟩ := toParent_leave hI T D hl hne ho hp
    exact ⟨.visit v, w', by simp [callC, call, e1], e2, e3⟩
  | «at» k p =>
    obtain ⟨ho, hp, a, ha, -⟩ := hr
    cases p with
    | nil => simp [nodeOf] at ha
    | cons i q =>
      obtain ⟨l, e1, e2⟩ := node_cases ha
      obtain ⟨v, w', e3, e4, e5⟩ := toParent_leave hI T D e1 (by rintro rfl; simp at e2) ho hp
      exact ⟨.visit v, w', by simp [callC, call, e3], e4, e5⟩

theorem call_getParent {w : Walk} {c : Cur} (hr : Rel K R w c) :
    ∃ o' w', callC .getParent (h, w) = .ok o' (h, w') ∧ OutRel (nodeOf K R) (c.call ts .getParent).1 o' ∧ Rel K R w' (c.call ts .getParent).2 := by
  have hr' := hr
  cases c with
  | done => exact ⟨.node none, w, by simp [callC, call, getParent, hr.2.1], trivial, hr⟩
  | off q d =>
    obtain ⟨ho, ⟨l, hl, hne⟩, hp, hv, hd⟩ := hr
    cases q with
    | nil => exact ⟨.node none, w, by simp [callC, call, getParent, hp, stk], trivial, hr'⟩
    | cons j q =>
      obtain ⟨b, hb⟩ := parent_node hl
      exact ⟨.node (some b), w, by simp [callC, call, getParent, hp, stk, hb, lift_ref (node_used hI T hb)], hb, hr'⟩
  | «at» k p =>
    obtain ⟨ho, hp, a, ha, -⟩ := hr
    match p, hp, ha with
    | [], _, ha => simp [nodeOf] at ha
    | [i], hp, ha => exact ⟨.node none, w, by simp [callC, call, getParent, hp, stk], trivial, hr'⟩
    | i :: j :: q, hp, ha =>
      obtain ⟨l, e1, e2⟩ := node_cases ha
      obtain ⟨b, hb⟩ := parent_node e1
      exact ⟨.node (some b), w, by simp [callC, call, getParent, hp, stk, hb, lift_ref (node_used hI T hb)], hb, hr'⟩

theorem sibLoop_ok {q : Pos} {l : List Addr} (e : look K R q = some l) : ∀ (n i : Nat) (w : Walk), i < l.length → w.path = stk K R (i :: q) →
    if i + n < l.length then sibLoop n (h, w) = .ok true (h, { w with path := stk K R ((i + n) :: q) })
    else sibLoop n (h, w) = .ok false (h, { w with path := ⟨none, none⟩ :: stk K R q, direction := .up }) := by
  intro n
  induction n with
  | zero =>
    intro i w hi hp
    rw [if_pos (by simpa using hi)]
    simp [sibLoop, ← hp]
  | succ n ih =>
    intro i w hi hp
    have ha : nodeOf K R (i :: q) = some l[i] := by rw [nodeOf_look e]; simp [hi]
    have hU := node_used hI T ha
    have hn := node_next hI T ha
    simp only [stk, ha] at hp
    by_cases hi1 : i + 1 < l.length
    · have hb : nodeOf K R ((i + 1) :: q) = some l[i+1] := by rw [nodeOf_look e]; simp [hi1]
      rw [hb] at hn
      have h1 := ih (i + 1) { w with path := stk K R ((i + 1) :: q) } hi1 rfl
      have hs : sibLoop (n + 1) (h, w) = sibLoop n (h, { w with path := stk K R ((i + 1) :: q) }) := by
        conv => lhs; rw [sibLoop]
        simp [hp, lift_next hU, hn, setLast, stk, hb]
      rw [hs, show i + (n + 1) = i + 1 + n from by omega]
      exact h1
    · have hb : nodeOf K R ((i + 1) :: q) = none := by rw [nodeOf_look e]; simp; omega
      rw [hb] at hn
      rw [if_neg (by omega)]
      conv => lhs; rw [sibLoop]
      simp [hp, lift_next hU, hn, setLast, setDir]

/-- `to_sib` from child `i` of `q`. -/
theorem toSib_ok {q : Pos} {l : List Addr} (e : look K R q = some l) {i : Nat} {w : Walk} (hi : i < l.length)
    (ho : w.origin = R.head?) (hv : w.visitType ≠ .none) (hp : w.path = stk K R (i :: q)) (hd : w.direction ≠ .up) (n : Nat) :
    if i + n < degAt ts q then ∃ v w', toSib n (h, w) = .ok v (h, w') ∧ OutRel (nodeOf K R) (Cur.first ts ((i + n) :: q)).shown (.visit v) ∧
        Rel K R w' (Cur.first ts ((i + n) :: q))
    else ∃ w', toSib n (h, w) = .ok none (h, w') ∧ Rel K R w' (.off q false) := by
  have h1 := sibLoop_ok hI T D e n i w hi hp
  rw [degAt_look D e]
  have hp' : w.path = ⟨nodeOf K R (i :: q), none⟩ :: stk K R q := hp
  by_cases hin : i + n < l.length
  · rw [if_pos hin] at h1 ⊢
    have ha : nodeOf K R ((i + n) :: q) = some l[i + n] := by rw [nodeOf_look e]; simp [hin]
    have hU := node_used hI T ha
    have hr : Rel K R { w with path := stk K R ((i + n) :: q), visitType := (visitOf (K l[i+n]).isEmpty), direction := (if (K l[i+n]).isEmpty then w.direction else .down) } (Cur.first ts ((i + n) :: q)) := by
      refine rel_first D ha ho rfl rfl ?_
      cases hK : K l[i + n] with
      | nil =>
        cases hd' : w.direction with
        | up => exact absurd hd' hd
        | down => simp
        | right => simp
      | cons b bs => simp
    have hr2 := hr
    rw [first_eq D ha] at hr2
    obtain ⟨b, hb, e2⟩ := get_at hI T hr2
    refine ⟨some (_, b), _, ?_, by rw [first_eq D ha]; exact ⟨rfl, hb⟩, hr⟩
    rw [← e2]
    simp only [toSib, WM.bind_apply, WM.self_apply, Res.bind_ok, hp', h1]
    simp only [if_true, WM.bind_apply, WM.self_apply, Res.bind_ok, stk, ha, WM.unwrap_some, lift_hnc hI hU]
    cases hK : K l[i + n] with
    | nil => simp [setVisit, visitOf]
    | cons c cs => simp [setVisit, setDir, visitOf]
  · rw [if_neg hin] at h1 ⊢
    refine ⟨{ w with path := ⟨none, none⟩ :: stk K R q, direction := .up }, ?_, ho, ⟨l, e, by rintro rfl; simp at hi⟩, rfl, hv, rfl⟩
    simp only [toSib, WM.bind_apply, WM.self_apply, Res.bind_ok, hp', h1]
    simp

theorem call_toSib {w : Walk} {c : Cur} (hr : Rel K R w c) (n : Nat) :
    ∃ o' w', callC (.toSib n) (h, w) = .ok o' (h, w') ∧ OutRel (nodeOf K R) (c.call ts (.toSib n)).1 o' ∧ Rel K R w' (c.call ts (.toSib n)).2 := by
  have hr' := hr
  cases c with
  | done => exact ⟨.visit none, w, by simp [callC, call, toSib, hr.2.1], trivial, hr⟩
  | off q d =>
    obtain ⟨ho, ⟨l, hl, hne⟩, hp, hv, hd⟩ := hr
    refine ⟨.panic, w, ?_, trivial, hr'⟩
    cases n <;> simp [callC, call, toSib, sibLoop, hp, Res.bind]
  | «at» k p =>
    obtain ⟨ho, hp, a, ha, hk⟩ := hr
    cases p with
    | nil => simp [nodeOf] at ha
    | cons i q =>
      obtain ⟨l, e1, e2⟩ := node_cases ha
      have hv : w.visitType ≠ .none := by cases k <;> simp [hk.1]
      have hd : w.direction ≠ .up := by
        cases k
        · simp [hk.2.1]
        · simp [hk.2.1]
        · rcases hk.2.1 with h1 | h1 <;> simp [h1]
      have h1 := toSib_ok hI T D e1 (List.getElem?_eq_some_iff.mp e2).1 ho hv hp hd n
      simp only [Cur.call]
      split at h1
      · rename_i hlt
        rw [if_pos hlt]
        obtain ⟨v, w', g1, g2, g3⟩ := h1
        exact ⟨.visit v, w', by simp [callC, call, g1], g2, g3⟩
      · rename_i hlt
        rw [if_neg hlt]
        obtain ⟨w', g1, g3⟩ := h1
        exact ⟨.visit none, w', by simp [callC, call, g1], trivial, g3⟩

theorem call_toChild {w : Walk} {c : Cur} (hr : Rel K R w c) (n : Nat) :
    ∃ o' w', callC (.toChild n) (h, w) = .ok o' (h, w') ∧ OutRel (nodeOf K R) (c.call ts (.toChild n)).1 o' ∧ Rel K R w' (c.call ts (.toChild n)).2 := by
  have hr' := hr
  cases c with
  | done => exact ⟨.visit none, w, by simp [callC, call, toChild, hr.2.1], trivial, hr⟩
  | off q d =>
    obtain ⟨ho, ⟨l, hl, hne⟩, hp, hv, hd⟩ := hr
    exact ⟨.panic, w, by simp [callC, call, toChild, hp, Res.bind], trivial, hr'⟩
  | «at» k p =>
    obtain ⟨ho, hp, a, ha, hk⟩ := hr
    cases p with
    | nil => simp [nodeOf] at ha
    | cons i q =>
      have hU := node_used hI T ha
      have hdeg := degAt_node D ha
      have hp' : w.path = ⟨some a, none⟩ :: stk K R q := by rw [hp]; simp [stk, ha]
      simp only [Cur.call]
      cases hK : K a with
      | nil =>
        rw [hK] at hdeg
        rw [if_pos (by simpa using hdeg)]
        have hkl : k = .leaf := by cases k <;> simp [hK] at hk ⊢
        subst hkl
        refine ⟨.visit none, { w with direction := .right }, ?_, trivial, ho, hp, a, ha, hk.1, .inr rfl, hK⟩
        simp [callC, call, toChild, hp', lift_hnc hI hU, hK, setDir]
      | cons b bs =>
        rw [hK] at hdeg
        rw [if_neg (by rw [hdeg]; simp)]
        have hlook := look_of_node ha
        have hb : nodeOf K R (0 :: i :: q) = some b := by rw [nodeOf_look hlook, hK]; rfl
        have hUb := node_used hI T hb
        have hd : w.direction ≠ .up := by
          cases k
          · simp [hk.2.1]
          · simp [hk.2.1]
          · rcases hk.2.1 with h1 | h1 <;> simp [h1]
        have h1 := toSib_ok hI T D (w := { w with path := stk K R (0 :: i :: q), visitType := visitOf (K b).isEmpty }) hlook (i := 0)
          (by rw [hK]; simp) ho (by cases hKb : K b <;> simp [visitOf]) rfl hd n
        have hs : toChild n (h, w) = toSib n (h, { w with path := stk K R (0 :: i :: q), visitType := visitOf (K b).isEmpty }) := by
          simp [toChild, hp', lift_hnc hI hU, hK, lift_head hI hU, lift_hnc hI hUb, setVisit, push, sibs, stk, hb, ha]
        rw [Nat.zero_add] at h1
        split at h1
        · rename_i hlt
          rw [if_pos hlt]
          obtain ⟨v, w', g1, g2, g3⟩ := h1
          exact ⟨.visit v, w', by simp [callC, call, hs, g1], g2, g3⟩
        · rename_i hlt
          rw [if_neg hlt]
          obtain ⟨w', g1, g3⟩ := h1
          exact ⟨.visit none, w', by simp [callC, call, hs, g1], trivial, g3⟩

/-- The walk of a fresh cursor. -/
theorem initVisit_top {w : Walk} (hne : R ≠ []) (ho : w.origin = R.head?) (hp : w.path = [sibs R.head?]) (hd : w.direction = .down) :
    ∃ w', initVisit (h, w) = .ok () (h, w') ∧ Rel K R w' (Cur.start ts) ∧ w'.origin = w.origin := by
  cases R with
  | nil => exact absurd rfl hne
  | cons r rs =>
    have ha : nodeOf K (r :: rs) [0] = some r := rfl
    have hU := node_used hI T ha
    have hlen : ts.length ≠ 0 := by rw [← D.length]; simp
    simp only [Cur.start, if_neg hlen]
    refine ⟨{ w with visitType := visitOf (K r).isEmpty }, ?_, rel_first D ha ho (by rw [hp]; rfl) rfl (.inl hd), rfl⟩
    simp [initVisit, hp, sibs, lift_hnc hI hU, setVisit]

theorem call_revisit {w : Walk} {c : Cur} (hr : Rel K R w c) :
    ∃ o' w', callC .revisit (h, w) = .ok o' (h, w') ∧ OutRel (nodeOf K R) (c.call ts .revisit).1 o' ∧ Rel K R w' (c.call ts .revisit).2 := by
  have hr' := hr
  by_cases hR : R = []
  · subst hR
    have hlook : ∀ q, q ≠ [] → look K [] q = none := by
      intro q
      induction q with
      | nil => intro h; exact absurd rfl h
      | cons i q ih =>
        intro _
        cases q with
        | nil => simp [look]
        | cons j q => simp only [look] at ih ⊢; rw [ih (by simp)]
    have hts : ts.length = 0 := by rw [← D.length]; rfl
    cases c with
    | done =>
      refine ⟨.unit, w, ?_, trivial, ?_⟩
      · simp [callC, call, revisit, hr.1]
      · simp only [Cur.call, Cur.start, if_pos hts]; exact hr
    | «at» k p =>
      obtain ⟨-, -, a, ha, -⟩ := hr
      cases p with
      | nil => simp [nodeOf] at ha
      | cons i q =>
        obtain ⟨l, e1, e2⟩ := node_cases ha
        cases q with
        | nil => simp only [look, Option.some.injEq] at e1; subst e1; simp at e2
        | cons j q => rw [hlook _ (by simp)] at e1; simp at e1
    | off q d =>
      obtain ⟨-, ⟨l, hl, hne⟩, -⟩ := hr
      cases q with
      | nil => simp only [look, Option.some.injEq] at hl; exact absurd hl.symm hne
      | cons j q => rw [hlook _ (by simp)] at hl; simp at hl
  · obtain ⟨r, rs, hRe⟩ := List.exists_cons_of_ne_nil hR
    have hos : w.origin.isSome = true := by rw [hr.1, hRe]; rfl
    cases c with
    | done =>
      obtain ⟨ho, hp, hd, hv⟩ := hr
      obtain ⟨w', e1, e2, -⟩ := initVisit_top hI T D (w := { w with path := [sibs w.origin], direction := .down }) hR ho (by simp [ho]) rfl
      refine ⟨.unit, w', ?_, trivial, e2⟩
      rw [hv] at e1
      simp [callC, call, revisit, hos, hv, push, hp, setDir, e1]
    | off q d =>
      obtain ⟨ho, hl, hp, hv, hd⟩ := hr
      refine ⟨.panic, { w with direction := .down }, ?_, trivial, ho, hl, hp, hv, rfl⟩
      cases hv' : w.visitType <;> simp [hv'] at hv <;> simp [callC, call, revisit, hos, hv', setDir, initVisit, hp, Res.bind]
    | «at» k p =>
      obtain ⟨ho, hp, a, ha, hk⟩ := hr
      have hU := node_used hI T ha
      cases p with
      | nil => simp [nodeOf] at ha
      | cons i q =>
        have hp' : w.path = ⟨some a, none⟩ :: stk K R q := by rw [hp]; simp [stk, ha]
        have hv : w.visitType ≠ .none := by cases k <;> simp [hk.1]
        have hkey : callC .revisit (h, w) = .ok .unit (h, { w with direction := .down, visitType := visitOf (K a).isEmpty }) := by
          cases hv' : w.visitType <;> simp [hv'] at hv <;>
            simp [callC, call, revisit, hos, hv', setDir, setVisit, initVisit, hp', lift_hnc hI hU]
        refine ⟨.unit, _, hkey, ?_, ?_⟩
        · cases k <;> trivial
        · cases k
          · refine ⟨ho, hp, a, ha, ?_, rfl, hk.2.2⟩
            have := hk.2.2
            cases hK : K a <;> simp [hK, visitOf] at this ⊢
          · refine ⟨ho, hp, a, ha, ?_, rfl, hk.2.2⟩
            have := hk.2.2
            cases hK : K a <;> simp [hK, visitOf] at this ⊢
          · exact ⟨ho, hp, a, ha, by simp [hk.2.2, visitOf], .inl rfl, hk.2.2⟩

/-- Every call behaves as specified. -/
theorem call_ok {w : Walk} {c : Cur} (hr : Rel K R w c) (op : WalkOp) :
    ∃ o' w', callC op (h, w) = .ok o' (h, w') ∧ OutRel (nodeOf K R) (c.call ts op).1 o' ∧ Rel K R w' (c.call ts op).2 := by
  cases op with
  | get => exact call_get hI T D hr
  | forward => exact call_forward hI T D hr
  | next => exact call_next hI T D hr
  | toParent => exact call_toParent hI T D hr
  | getParent => exact call_getParent hI T D hr
  | toChild n => exact call_toChild hI T D hr n
  | toSib n => exact call_toSib hI T D hr n
  | revisit => exact call_revisit hI T D hr

theorem calls_ok : ∀ (ops : List WalkOp) {w : Walk} {c : Cur}, Rel K R w c →
    ∃ os' w', calls ops (h, w) = .ok os' (h, w') ∧ List.Forall₂ (OutRel (nodeOf K R)) (c.calls ts ops).1 os' ∧ Rel K R w' (c.calls ts ops).2 := by
  intro ops
  induction ops with
  | nil => intro w c hr; exact ⟨[], w, rfl, .nil, hr⟩
  | cons op ops ih =>
    intro w c hr
    obtain ⟨o', w1, e1, e2, e3⟩ := call_ok hI T D hr op
    obtain ⟨os', w2, g1, g2, g3⟩ := ih e3
    refine ⟨o' :: os', w2, ?_, ?_, ?_⟩
    · rw [calls_cons]; simp [e1, g1]
    · simp only [Cur.calls]; exact .cons e2 g2
    · simp only [Cur.calls]; exact g3

end

/-- `TreeWalk::from`. -/
theorem fromTree_ok (hI : Inv h K) {r : Addr} (hU : h.Used r) (hup : h.up r = none) (D : DenL h.val K [r] ts) :
    ∃ w, fromTree r h = .ok w h ∧ Top h [r] ∧ Rel K [r] w (Cur.start ts) := by
  have hn := (hI.l.root r hU (by simp) hup).2
  have T : Top h [r] := ⟨by simpa using hU, by
    intro i a e
    cases i with
    | zero => simp at e; subst e; simpa using hn
    | succ i => simp at e⟩
  have ha : nodeOf K [r] [0] = some r := rfl
  have hlen : ts.length ≠ 0 := by rw [← D.length]; simp
  have hthis : ∀ w, WM.lift (this (some r)) (h, w) = .ok ⟨some r, none⟩ (h, w) := fun w => WM.lift_ok (by simp [this, hU.1, hn])
  refine ⟨⟨[⟨some r, none⟩], .down, visitOf (K r).isEmpty, some r⟩, ?_, T, ?_⟩
  · simp [fromTree, onNode, reset, Walk.default, hthis, push, initVisit, setVisit, lift_hnc hI hU]
  · simp only [Cur.start, if_neg hlen]
    exact rel_first D ha rfl rfl rfl (.inl rfl)

/-- `ForestWalk::from`. -/
theorem fromForest_ok (hI : Inv h K) {f : Addr} (hU : h.Used f) (D : DenL h.val K (K f) ts) :
    ∃ w, fromForest f h = .ok w h ∧ Top h (K f) ∧ Rel K (K f) w (Cur.start ts) := by
  have T : Top h (K f) := ⟨fun c hc => ((hI.l.mem f c).mp hc).1, links_next (hI.l.links f hU)⟩
  have hh := hI.l.head f hU
  cases hK : K f with
  | nil =>
    have hts : ts.length = 0 := by rw [← D.length, hK]; rfl
    refine ⟨Walk.default, ?_, by rw [← hK]; exact T, ?_⟩
    · simp only [fromForest, WM.bind_apply, lift_hnc hI hU, hK]; simp
    · simp only [Cur.start, if_pos hts]; exact ⟨rfl, rfl, rfl, rfl⟩
  | cons r rs =>
    rw [hK] at hh T D
    have ha : nodeOf K (r :: rs) [0] = some r := rfl
    have hUr := T.used r (by simp)
    have hlen : ts.length ≠ 0 := by rw [← D.length]; simp
    refine ⟨⟨[⟨some r, none⟩], .down, visitOf (K r).isEmpty, some r⟩, ?_, T, ?_⟩
    · simp only [fromForest, WM.bind_apply, lift_hnc hI hU, hK]
      simp [WM.lift_ok (front_ok hU.1), hh, onForest, reset, Walk.default, push, initVisit, setVisit, sibs, lift_hnc hI hUr]
    · simp only [Cur.start, if_neg hlen]
      exact rel_first D ha rfl rfl rfl (.inl rfl)

end
end Walk
end Trees
