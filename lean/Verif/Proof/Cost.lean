import Verif.Model.Cost
import Verif.Proof.FineExec
/-
Bounds for the number of accesses.
-/
namespace Trees
namespace Fine
set_option linter.unusedSimpArgs false
set_option linter.unusedVariables false
variable {α β γ δ κ σ ι : Type} {A : Alloc}

theorem bind_eq (p : Prog α β) (f : β → Prog α γ) : (p >>= f) = p.bind f := rfl

theorem cost_bind (p : Prog α β) (f : β → Prog α γ) (h : Heap α) :
    cost A (p >>= f) h = cost A p h + match p.run A h with
      | .ok b h' => cost A (f b) h'
      | .err _ _ => 0 := by
  rw [bind_eq]
  induction p generalizing h with
  | ret b => simp [Prog.bind, cost, Prog.run]
  | fail e => simp [Prog.bind, cost, Prog.run]
  | acc a k ih =>
    simp only [Prog.bind, cost, Prog.run]
    cases a.run A h with
    | ok x h' => simp only [Res.bind]; rw [ih]; omega
    | err e h' => simp [Res.bind]

theorem cost_access (a : Acc α) (h : Heap α) : cost A (access a) h = a.weight := by
  simp only [access, cost]
  cases a.run A h <;> simp [cost]

theorem cost_catch (p : Prog α β) (f : β → Prog α γ) (g : Err → Prog α γ) (hg : ∀ e h, cost A (g e) h = 0) (h : Heap α) :
    cost A (p.catch_ f g) h = cost A p h + match p.run A h with
      | .ok b h' => cost A (f b) h'
      | .err _ _ => 0 := by
  induction p generalizing h with
  | ret b => simp [Prog.catch_, cost, Prog.run]
  | fail e => simp [Prog.catch_, cost, Prog.run, hg]
  | acc a k ih =>
    simp only [Prog.catch_, cost, Prog.run]
    cases a.run A h with
    | ok x h' => simp only [Res.bind]; rw [ih]; omega
    | err e h' => simp [Res.bind]

/-- At most `n` accesses when the parent pointers are `u`. -/
def CI (A : Alloc) (u : Addr → Option Addr) (p : Prog α β) (n : Nat) : Prop := ∀ h, h.up = u → cost A p h ≤ n

/-- The access leaves the parent pointers alone. -/
def Acc.keepsUp : Acc α → Bool
  | .setPtr .up _ _ => false
  | .make _ => false
  | .newVec _ => false
  | _ => true

theorem rd_same {f : Heap α → Addr → β} {a : Addr} {h h' : Heap α} {b : β} (e : rd f a h = .ok b h') : h' = h := by
  unfold rd at e; split at e
  · cases e; rfl
  · cases e

theorem acc_up {a : Acc α} (k : a.keepsUp = true) {h h' : Heap α} {x : a.Ret} (e : a.run A h = .ok x h') : h'.up = h.up := by
  cases a with
  | ptr f a => cases f <;> exact congrArg Heap.up (rd_same e)
  | setPtr f a v =>
    cases f with
    | up => cases k
    | _ =>
      simp only [Acc.run, Fld.set, Trees.setPrev, Trees.setNext, Trees.setHead, Trees.setTail, wr] at e
      split at e
      · cases e; rfl
      · cases e
  | size a => exact congrArg Heap.up (rd_same e)
  | data a => exact congrArg Heap.up (rd_same e)
  | setSize a s =>
    simp only [Acc.run, Trees.setSize, wr] at e
    split at e
    · cases e; rfl
    · cases e
  | setData a s =>
    simp only [Acc.run, Trees.setData, wr] at e
    split at e
    · cases e; rfl
    · cases e
  | make d => cases k
  | newVec n => cases k
  | rcDrop o =>
    simp only [Acc.run, Trees.rcDrop] at e
    split at e
    · split at e
      · cases e; rfl
      · split at e
        · cases e
        · cases e; rfl
    · cases e
  | vecNode v i =>
    simp only [Acc.run, Trees.vecNode] at e
    split at e
    · cases e
    · split at e
      · cases e; rfl
      · cases e
  | getRef v =>
    simp only [Acc.run] at e
    split at e
    · cases e
    · cases e; rfl
  | setRef v n =>
    simp only [Acc.run] at e
    split at e
    · cases e
    · cases e; rfl
  | freeVec v =>
    simp only [Acc.run] at e
    split at e
    · cases e
    · cases e; rfl
  | logDrop d => simp only [Acc.run, Trees.logDrop] at e; cases e; rfl
  | bound => simp only [Acc.run] at e; cases e; rfl

variable {u : Addr → Option Addr}

theorem CI.pure (b : β) (n : Nat) : CI A u (Pure.pure b : Prog α β) n := fun h _ => Nat.zero_le _
theorem CI.ret (b : β) (n : Nat) : CI A u (.ret b : Prog α β) n := fun h _ => Nat.zero_le _
theorem CI.throw (e : Err) (n : Nat) : CI A u (throw e : Prog α β) n := fun h _ => Nat.zero_le _
theorem CI.mono {p : Prog α β} {n k : Nat} (hp : CI A u p n) (hk : n ≤ k) : CI A u p k := fun h e => Nat.le_trans (hp h e) hk
theorem CI.acc {a : Acc α} (k : a.keepsUp = true) {f : a.Ret → Prog α β} {n : Nat} (hf : ∀ x, CI A u (f x) n) :
    CI A u (access a >>= f) (n + 1) := by
  intro h e
  rw [cost_bind, cost_access]
  have : a.weight ≤ 1 := by cases a <;> simp [Acc.weight]
  have e1 : (access a).run A h = a.run A h := Imp.access a h
  rw [e1]
  cases e2 : a.run A h with
  | ok x h' => have := hf x h' ((acc_up k e2).trans e); simp only []; omega
  | err x h' => simp only []; omega
theorem CI.access (a : Acc α) (n : Nat) : CI A u (access a) (n + 1) := by
  intro h e
  rw [cost_access]
  cases a <;> simp [Acc.weight]
theorem CI.getUp {a : Addr} {f : Option Addr → Prog α β} {n : Nat} (hf : CI A u (f (u a)) n) :
    CI A u (getUp a >>= f) (n + 1) := by
  intro h e
  rw [cost_bind, imp_getUp]
  have e0 : cost A (Fine.getUp a : Prog α _) h = 1 := cost_access _ _
  rw [e0]
  simp only [Trees.getUp, rd]
  by_cases l : h.live a = true
  · simp only [l, if_true]
    have := hf h e
    rw [e]; omega
  · simp only [l]
    simp
theorem CI.setUp {a : Addr} {v : Option Addr} {f : Unit → Prog α β} {n : Nat} (hf : CI A (upd u a v) (f ()) n) :
    CI A u (setUp a v >>= f) (n + 1) := by
  intro h e
  rw [cost_bind, imp_setUp]
  have e0 : cost A (Fine.setUp a v : Prog α _) h = 1 := cost_access _ _
  rw [e0]
  simp only [Trees.setUp, wr]
  by_cases l : h.live a = true
  · simp only [l, if_true]
    have := hf { h with up := upd h.up a v } (by simp [e])
    omega
  · simp only [l]
    simp
theorem CI.bound {f : Nat → Prog α β} {n : Nat} (hf : ∀ x, CI A u (f x) n) :
    CI A u (bound >>= f) n := fun h e => by
  have := hf h.nextAddr h e
  have e1 : cost A (Fine.bound >>= f) h = 0 + cost A (f h.nextAddr) h := rfl
  omega
theorem CI.getPrev (a : Addr) {f : Option Addr → Prog α β} {k : Nat} (hf : ∀ x, CI A u (f x) k) : CI A u (getPrev a >>= f) (k + 1) :=
  CI.acc (a := .ptr .prev a) rfl hf
theorem CI.getPrev' (a : Addr) (k : Nat) : CI A u (Fine.getPrev a : Prog α _) (k + 1) := CI.access _ _
theorem CI.getNext (a : Addr) {f : Option Addr → Prog α β} {k : Nat} (hf : ∀ x, CI A u (f x) k) : CI A u (getNext a >>= f) (k + 1) :=
  CI.acc (a := .ptr .next a) rfl hf
theorem CI.getNext' (a : Addr) (k : Nat) : CI A u (Fine.getNext a : Prog α _) (k + 1) := CI.access _ _
theorem CI.getHead (a : Addr) {f : Option Addr → Prog α β} {k : Nat} (hf : ∀ x, CI A u (f x) k) : CI A u (getHead a >>= f) (k + 1) :=
  CI.acc (a := .ptr .head a) rfl hf
theorem CI.getHead' (a : Addr) (k : Nat) : CI A u (Fine.getHead a : Prog α _) (k + 1) := CI.access _ _
theorem CI.getTail (a : Addr) {f : Option Addr → Prog α β} {k : Nat} (hf : ∀ x, CI A u (f x) k) : CI A u (getTail a >>= f) (k + 1) :=
  CI.acc (a := .ptr .tail a) rfl hf
theorem CI.getTail' (a : Addr) (k : Nat) : CI A u (Fine.getTail a : Prog α _) (k + 1) := CI.access _ _
theorem CI.setPrev (a : Addr) (v : Option Addr) {f : Unit → Prog α β} {k : Nat} (hf : ∀ x, CI A u (f x) k) : CI A u (setPrev a v >>= f) (k + 1) :=
  CI.acc (a := .setPtr .prev a v) rfl hf
theorem CI.setPrev' (a : Addr) (v : Option Addr) (k : Nat) : CI A u (Fine.setPrev a v : Prog α _) (k + 1) := CI.access _ _
theorem CI.setNext (a : Addr) (v : Option Addr) {f : Unit → Prog α β} {k : Nat} (hf : ∀ x, CI A u (f x) k) : CI A u (setNext a v >>= f) (k + 1) :=
  CI.acc (a := .setPtr .next a v) rfl hf
theorem CI.setNext' (a : Addr) (v : Option Addr) (k : Nat) : CI A u (Fine.setNext a v : Prog α _) (k + 1) := CI.access _ _
theorem CI.setHead (a : Addr) (v : Option Addr) {f : Unit → Prog α β} {k : Nat} (hf : ∀ x, CI A u (f x) k) : CI A u (setHead a v >>= f) (k + 1) :=
  CI.acc (a := .setPtr .head a v) rfl hf
theorem CI.setHead' (a : Addr) (v : Option Addr) (k : Nat) : CI A u (Fine.setHead a v : Prog α _) (k + 1) := CI.access _ _
theorem CI.setTail (a : Addr) (v : Option Addr) {f : Unit → Prog α β} {k : Nat} (hf : ∀ x, CI A u (f x) k) : CI A u (setTail a v >>= f) (k + 1) :=
  CI.acc (a := .setPtr .tail a v) rfl hf
theorem CI.setTail' (a : Addr) (v : Option Addr) (k : Nat) : CI A u (Fine.setTail a v : Prog α _) (k + 1) := CI.access _ _
theorem CI.getSize (a : Addr) {f : Size → Prog α β} {k : Nat} (hf : ∀ x, CI A u (f x) k) : CI A u (getSize a >>= f) (k + 1) :=
  CI.acc (a := .size a) rfl hf
theorem CI.getSize' (a : Addr) (k : Nat) : CI A u (Fine.getSize a : Prog α _) (k + 1) := CI.access _ _
theorem CI.setSize (a : Addr) (s : Size) {f : Unit → Prog α β} {k : Nat} (hf : ∀ x, CI A u (f x) k) : CI A u (setSize a s >>= f) (k + 1) :=
  CI.acc (a := .setSize a s) rfl hf
theorem CI.setSize' (a : Addr) (s : Size) (k : Nat) : CI A u (Fine.setSize a s : Prog α _) (k + 1) := CI.access _ _
theorem CI.getData (a : Addr) {f : Data α → Prog α β} {k : Nat} (hf : ∀ x, CI A u (f x) k) : CI A u (getData a >>= f) (k + 1) :=
  CI.acc (a := .data a) rfl hf
theorem CI.getData' (a : Addr) (k : Nat) : CI A u (Fine.getData a : Prog α _) (k + 1) := CI.access _ _
theorem CI.setData (a : Addr) (s : Data α) {f : Unit → Prog α β} {k : Nat} (hf : ∀ x, CI A u (f x) k) : CI A u (setData a s >>= f) (k + 1) :=
  CI.acc (a := .setData a s) rfl hf
theorem CI.setData' (a : Addr) (s : Data α) (k : Nat) : CI A u (Fine.setData a s : Prog α _) (k + 1) := CI.access _ _
theorem CI.rcDrop (a : Addr) {f : Unit → Prog α β} {k : Nat} (hf : ∀ x, CI A u (f x) k) : CI A u (rcDrop a >>= f) (k + 1) :=
  CI.acc (a := .rcDrop a) rfl hf
theorem CI.rcDrop' (a : Addr) (k : Nat) : CI A u (Fine.rcDrop a : Prog α _) (k + 1) := CI.access _ _
theorem CI.vecNode (v i : Nat) {f : Addr → Prog α β} {k : Nat} (hf : ∀ x, CI A u (f x) k) : CI A u (vecNode v i >>= f) (k + 1) :=
  CI.acc (a := .vecNode v i) rfl hf
theorem CI.vecNode' (v i : Nat) (k : Nat) : CI A u (Fine.vecNode v i : Prog α _) (k + 1) := CI.access _ _
theorem CI.logDrop (d : α) {f : Unit → Prog α β} {k : Nat} (hf : ∀ x, CI A u (f x) k) : CI A u (logDrop d >>= f) (k + 1) :=
  CI.acc (a := .logDrop d) rfl hf
theorem CI.logDrop' (d : α) (k : Nat) : CI A u (Fine.logDrop d : Prog α _) (k + 1) := CI.access _ _
theorem CI.getRef (v : Nat) {f : Nat → Prog α β} {k : Nat} (hf : ∀ x, CI A u (f x) k) : CI A u (getRef v >>= f) (k + 1) :=
  CI.acc (a := .getRef v) rfl hf
theorem CI.getRef' (v : Nat) (k : Nat) : CI A u (Fine.getRef v : Prog α _) (k + 1) := CI.access _ _
theorem CI.setRef (v n : Nat) {f : Unit → Prog α β} {k : Nat} (hf : ∀ x, CI A u (f x) k) : CI A u (setRef v n >>= f) (k + 1) :=
  CI.acc (a := .setRef v n) rfl hf
theorem CI.setRef' (v n : Nat) (k : Nat) : CI A u (Fine.setRef v n : Prog α _) (k + 1) := CI.access _ _
theorem CI.freeVec (v : Nat) {f : Unit → Prog α β} {k : Nat} (hf : ∀ x, CI A u (f x) k) : CI A u (freeVec v >>= f) (k + 1) :=
  CI.acc (a := .freeVec v) rfl hf
theorem CI.freeVec' (v : Nat) (k : Nat) : CI A u (Fine.freeVec v : Prog α _) (k + 1) := CI.access _ _
theorem CI.setUp' (a : Addr) (v : Option Addr) (k : Nat) : CI A u (Fine.setUp a v : Prog α _) (k + 1) := CI.access _ _
theorem CI.makeNode' (d : Data α) (k : Nat) : CI A u (Fine.makeNode d : Prog α _) (k + 1) := CI.access _ _
theorem CI.newVec' (d : Nat) (k : Nat) : CI A u (Fine.newVec d : Prog α _) (k + 1) := CI.access _ _
theorem CI.unwrap {o : Option γ} {f : γ → Prog α β} {n : Nat} (hf : ∀ b, o = some b → CI A u (f b) n) :
    CI A u (unwrap o >>= f) n := by
  cases o with
  | none => exact fun h _ => Nat.zero_le _
  | some b => exact hf b rfl

theorem bind_assoc_p (p : Prog α β) (f : β → Prog α γ) (g : γ → Prog α δ) : ((p >>= f) >>= g) = (p >>= fun x => f x >>= g) := by
  simp only [bind_eq]
  induction p with
  | ret b => rfl
  | fail e => rfl
  | acc a k ih => simp only [Prog.bind]; congr 1; funext x; exact ih x
theorem pure_bind_p (b : β) (f : β → Prog α γ) : ((Pure.pure b : Prog α β) >>= f) = f b := rfl
theorem throw_bind_p (e : Err) (f : β → Prog α γ) : ((throw e : Prog α β) >>= f) = throw e := rfl

syntax "ci0" : tactic
syntax "ci1" : tactic
macro_rules | `(tactic| ci1) => `(tactic| rw [pure_bind_p])
macro_rules | `(tactic| ci1) => `(tactic| rw [throw_bind_p])
macro_rules | `(tactic| ci1) => `(tactic| rw [bind_assoc_p])
macro_rules | `(tactic| ci1) => `(tactic| split)
macro_rules | `(tactic| ci1) => `(tactic| (with_reducible refine CI.getPrev _ (fun _ => ?_)))
macro_rules | `(tactic| ci1) => `(tactic| with_reducible exact CI.getPrev' _ _)
macro_rules | `(tactic| ci1) => `(tactic| (with_reducible refine CI.getNext _ (fun _ => ?_)))
macro_rules | `(tactic| ci1) => `(tactic| with_reducible exact CI.getNext' _ _)
macro_rules | `(tactic| ci1) => `(tactic| (with_reducible refine CI.getHead _ (fun _ => ?_)))
macro_rules | `(tactic| ci1) => `(tactic| with_reducible exact CI.getHead' _ _)
macro_rules | `(tactic| ci1) => `(tactic| (with_reducible refine CI.getTail _ (fun _ => ?_)))
macro_rules | `(tactic| ci1) => `(tactic| with_reducible exact CI.getTail' _ _)
macro_rules | `(tactic| ci1) => `(tactic| (with_reducible refine CI.setPrev _ _ (fun _ => ?_)))
macro_rules | `(tactic| ci1) => `(tactic| with_reducible exact CI.setPrev' _ _ _)
macro_rules | `(tactic| ci1) => `(tactic| (with_reducible refine CI.setNext _ _ (fun _ => ?_)))
macro_rules | `(tactic| ci1) => `(tactic| with_reducible exact CI.setNext' _ _ _)
macro_rules | `(tactic| ci1) => `(tactic| (with_reducible refine CI.setHead _ _ (fun _ => ?_)))
macro_rules | `(tactic| ci1) => `(tactic| with_reducible exact CI.setHead' _ _ _)
macro_rules | `(tactic| ci1) => `(tactic| (with_reducible refine CI.setTail _ _ (fun _ => ?_)))
macro_rules | `(tactic| ci1) => `(tactic| with_reducible exact CI.setTail' _ _ _)
macro_rules | `(tactic| ci1) => `(tactic| (with_reducible refine CI.getSize _ (fun _ => ?_)))
macro_rules | `(tactic| ci1) => `(tactic| with_reducible exact CI.getSize' _ _)
macro_rules | `(tactic| ci1) => `(tactic| (with_reducible refine CI.setSize _ _ (fun _ => ?_)))
macro_rules | `(tactic| ci1) => `(tactic| with_reducible exact CI.setSize' _ _ _)
macro_rules | `(tactic| ci1) => `(tactic| (with_reducible refine CI.getData _ (fun _ => ?_)))
macro_rules | `(tactic| ci1) => `(tactic| with_reducible exact CI.getData' _ _)
macro_rules | `(tactic| ci1) => `(tactic| (with_reducible refine CI.setData _ _ (fun _ => ?_)))
macro_rules | `(tactic| ci1) => `(tactic| with_reducible exact CI.setData' _ _ _)
macro_rules | `(tactic| ci1) => `(tactic| (with_reducible refine CI.rcDrop _ (fun _ => ?_)))
macro_rules | `(tactic| ci1) => `(tactic| with_reducible exact CI.rcDrop' _ _)
macro_rules | `(tactic| ci1) => `(tactic| (with_reducible refine CI.vecNode _ _ (fun _ => ?_)))
macro_rules | `(tactic| ci1) => `(tactic| with_reducible exact CI.vecNode' _ _ _)
macro_rules | `(tactic| ci1) => `(tactic| (with_reducible refine CI.logDrop _ (fun _ => ?_)))
macro_rules | `(tactic| ci1) => `(tactic| with_reducible exact CI.logDrop' _ _)
macro_rules | `(tactic| ci1) => `(tactic| (with_reducible refine CI.getRef _ (fun _ => ?_)))
macro_rules | `(tactic| ci1) => `(tactic| with_reducible exact CI.getRef' _ _)
macro_rules | `(tactic| ci1) => `(tactic| (with_reducible refine CI.setRef _ _ (fun _ => ?_)))
macro_rules | `(tactic| ci1) => `(tactic| with_reducible exact CI.setRef' _ _ _)
macro_rules | `(tactic| ci1) => `(tactic| (with_reducible refine CI.freeVec _ (fun _ => ?_)))
macro_rules | `(tactic| ci1) => `(tactic| with_reducible exact CI.freeVec' _ _)
macro_rules | `(tactic| ci1) => `(tactic| (with_reducible refine CI.getUp ?_))
macro_rules | `(tactic| ci1) => `(tactic| (with_reducible refine CI.setUp ?_))
macro_rules | `(tactic| ci1) => `(tactic| (with_reducible exact CI.setUp' _ _ _))
macro_rules | `(tactic| ci1) => `(tactic| (with_reducible exact CI.makeNode' _ _))
macro_rules | `(tactic| ci1) => `(tactic| (with_reducible exact CI.newVec' _ _))
macro_rules | `(tactic| ci1) => `(tactic| (with_reducible refine CI.bound (fun _ => ?_)))
macro_rules | `(tactic| ci1) => `(tactic| (with_reducible refine CI.unwrap (fun _ _ => ?_)))
macro_rules | `(tactic| ci1) => `(tactic| with_reducible exact CI.pure _ _)
macro_rules | `(tactic| ci1) => `(tactic| with_reducible exact CI.ret _ _)
macro_rules | `(tactic| ci1) => `(tactic| with_reducible exact CI.throw _ _)
macro_rules | `(tactic| ci1) => `(tactic| assumption)
macro "unf" : tactic => `(tactic| simp only [hasNoChild, degree, isForest, nodeCount, front, back, connectNext, treeFromNode,
  bind_assoc_p, pure_bind_p, throw_bind_p])
macro "ci" : tactic => `(tactic| repeat' ci1)

theorem ci_incLoop {l : List Addr} {o : Option Addr} (hc : UpChain u o l) (k cnt n : Nat) :
    CI A u (incLoop k o cnt : Prog α _) (3 * l.length + n) := by
  induction l generalizing k o with
  | nil => cases hc; cases k <;> exact CI.pure _ _
  | cons b l ih =>
    obtain ⟨rfl, hc⟩ := hc
    cases k with
    | zero => exact CI.throw _ _
    | succ k =>
      unfold incLoop
      rw [show 3 * (b :: l).length + n = 3 * l.length + n + 1 + 1 + 1 by simp; omega]
      ci
      exact ih hc _

theorem ci_decLoop {l : List Addr} {o : Option Addr} (hc : UpChain u o l) (k cnt n : Nat) :
    CI A u (decLoop k o cnt : Prog α _) (3 * l.length + n) := by
  induction l generalizing k o with
  | nil => cases hc; cases k <;> exact CI.pure _ _
  | cons b l ih =>
    obtain ⟨rfl, hc⟩ := hc
    cases k with
    | zero => exact CI.throw _ _
    | succ k =>
      unfold decLoop
      rw [show 3 * (b :: l).length + n = 3 * l.length + n + 1 + 1 + 1 by simp; omega]
      ci
      exact ih hc _

theorem ci_incSizes {l : List Addr} {a : Addr} (hc : UpChain u (u a) l) (d cnt n : Nat) :
    CI A u (incSizes a d cnt : Prog α _) (3 * l.length + n + 3) := by
  unfold incSizes
  ci
  exact ci_incLoop hc _ _ _

theorem ci_decSizes {l : List Addr} {a : Addr} (hc : UpChain u (u a) l) (d cnt n : Nat) :
    CI A u (decSizes a d cnt : Prog α _) (3 * l.length + n + 3) := by
  unfold decSizes
  ci
  exact ci_decLoop hc _ _ _

macro_rules | `(tactic| ci1) => `(tactic| with_reducible exact CI.mono (ci_incSizes (by assumption) _ _ 0) (by omega))
macro_rules | `(tactic| ci1) => `(tactic| with_reducible exact CI.mono (ci_decSizes (by assumption) _ _ 0) (by omega))

theorem ci_pushFront {l : List Addr} {a t : Addr} (hc : UpChain (upd u t (some a)) (upd u t (some a) a) l) :
    CI A u (pushFront a t : Prog α _) (3 * l.length + 11) := by
  unfold pushFront; unf
  ci

theorem ci_pushBack {l : List Addr} {a t : Addr} (hc : UpChain (upd u t (some a)) (upd u t (some a) a) l) :
    CI A u (pushBack a t : Prog α _) (3 * l.length + 11) := by
  unfold pushBack; unf
  ci

theorem CI.bind {p : Prog α β} {f : β → Prog α γ} {n k : Nat} (hp : CI A u p n) (kp : ∀ h b h', p.run A h = .ok b h' → h'.up = h.up)
    (hf : ∀ b, CI A u (f b) k) : CI A u (p >>= f) (n + k) := by
  intro h e
  rw [cost_bind]
  have := hp h e
  cases e1 : p.run A h with
  | ok b h' => have := hf b h' ((kp h b h' e1).trans e); simp only []; omega
  | err x h' => simp only []; omega

theorem decLoop_up (cnt : Nat) : ∀ (k : Nat) (o : Option Addr) (h h' : Heap α) (b : Unit), Trees.decLoop k o cnt h = .ok b h' → h'.up = h.up
  | _, none, h, h', b, e => by cases ‹Nat› <;> (simp [Trees.decLoop] at e; rw [e])
  | 0, some _, h, h', b, e => by simp [Trees.decLoop] at e
  | k+1, some p, h, h', b, e => by
    simp only [Trees.decLoop, M.bind_apply, Trees.getSize, rd] at e
    by_cases l : h.live p = true
    · simp only [l, if_true, Res.bind_ok] at e
      split at e
      · cases e
      · simp only [M.bind_apply, Trees.setSize, Trees.getUp, rd, wr, l, if_true, Res.bind_ok] at e
        have := decLoop_up cnt k _ _ h' b e
        exact this
    · simp only [l] at e
      cases e

theorem decSizes_up (a : Addr) (d cnt : Nat) (h h' : Heap α) (b : Unit) (e : (decSizes a d cnt).run A h = .ok b h') : h'.up = h.up := by
  rw [imp_decSizes] at e
  simp only [Trees.decSizes, M.bind_apply, Trees.getSize, rd] at e
  by_cases l : h.live a = true
  · simp only [l, if_true, Res.bind_ok] at e
    split at e
    · cases e
    · simp only [M.bind_apply, Trees.setSize, Trees.getUp, rd, wr, l, if_true, Res.bind_ok, M.fuelled_apply] at e
      have := decLoop_up cnt _ _ _ h' b e
      exact this
  · simp only [l] at e
    cases e

theorem CI.decSizes {l : List Addr} {a : Addr} (hc : UpChain u (u a) l) (d cnt n : Nat) {f : Unit → Prog α β} (hf : ∀ x, CI A u (f x) n) :
    CI A u (decSizes a d cnt >>= f) (3 * l.length + (n + 3)) := by
  have := CI.bind (ci_decSizes (A := A) (α := α) hc d cnt 0) (fun h b h' e => decSizes_up a d cnt h h' b e) hf
  exact this.mono (by omega)

theorem ci_popFront {l : List Addr} {a : Addr} (hc : UpChain u (u a) l) :
    CI A u (popFront a : Prog α _) (3 * l.length + 11) := by
  unfold popFront; unf
  ci
  · exact CI.mono (CI.decSizes hc _ _ 1 (fun _ => by ci)) (by omega)
  · exact CI.mono (CI.decSizes hc _ _ 1 (fun _ => by ci)) (by omega)

theorem ci_popBack {l : List Addr} {a : Addr} (hc : UpChain u (u a) l) :
    CI A u (popBack a : Prog α _) (3 * l.length + 11) := by
  unfold popBack; unf
  ci
  · exact CI.mono (CI.decSizes hc _ _ 1 (fun _ => by ci)) (by omega)
  · exact CI.mono (CI.decSizes hc _ _ 1 (fun _ => by ci)) (by omega)

theorem ci_insertPrevSib {l : List Addr} {a p t : Addr} (hp : u a = some p) (hc : UpChain (upd u t (some p)) (upd u t (some p) p) l) :
    CI A u (insertPrevSib a t : Prog α _) (3 * l.length + 12) := by
  unfold insertPrevSib; unf
  refine CI.getUp ?_
  rw [hp]
  dsimp only
  ci

theorem ci_insertNextSib {l : List Addr} {a p t : Addr} (hp : u a = some p) (hc : UpChain (upd u t (some p)) (upd u t (some p) p) l) :
    CI A u (insertNextSib a t : Prog α _) (3 * l.length + 12) := by
  unfold insertNextSib; unf
  refine CI.getUp ?_
  rw [hp]
  dsimp only
  ci

theorem ci_detach_root {a : Addr} (hp : u a = none) : CI A u (detach a : Prog α _) 1 := by
  unfold detach; unf
  refine CI.getUp ?_
  rw [hp]
  exact fun h _ => Nat.zero_le _

theorem ci_detach {l : List Addr} {a p : Addr} (hp : u a = some p) (hc : UpChain u (u p) l) :
    CI A u (detach a : Prog α _) (3 * l.length + 17) := by
  unfold detach; unf
  refine CI.getUp ?_
  rw [hp]
  refine CI.unwrap fun b e => ?_
  cases e
  ci
  all_goals exact CI.mono (CI.decSizes hc _ _ 1 (fun _ => by ci)) (by omega)

/-! ### Work that does not depend on the heap -/

/-- At most `n` accesses, whatever memory looks like. -/
def Cst (A : Alloc) (p : Prog α β) (n : Nat) : Prop := ∀ h, cost A p h ≤ n

theorem CI.cst {p : Prog α β} {n : Nat} (hp : ∀ u, CI A u p n) : Cst A p n := fun h => hp _ h rfl
theorem Cst.ci {p : Prog α β} {n : Nat} (hp : Cst A p n) : CI A u p n := fun h _ => hp h
theorem Cst.mono {p : Prog α β} {n k : Nat} (hp : Cst A p n) (hk : n ≤ k) : Cst A p k := fun h => Nat.le_trans (hp h) hk
theorem Cst.bind {p : Prog α β} {f : β → Prog α γ} {n k : Nat} (hp : Cst A p n) (hf : ∀ b, Cst A (f b) k) : Cst A (p >>= f) (n + k) := by
  intro h
  rw [cost_bind]
  have := hp h
  cases e1 : p.run A h with
  | ok b h' => have := hf b h'; simp only []; omega
  | err x h' => simp only []; omega
theorem Cst.pure (b : β) : Cst A (Pure.pure b : Prog α β) 0 := fun h => Nat.zero_le _
theorem Cst.throw (e : Err) : Cst A (throw e : Prog α β) 0 := fun h => Nat.zero_le _

theorem cst_iterNext (it : RawIter) : Cst A (iterNext it : Prog α _) (min it.len 1) := by
  refine CI.cst fun u => ?_
  unfold iterNext uncountedNext
  split
  · exact CI.pure _ _
  · rw [show min it.len 1 = 0 + 1 by omega]
    ci

theorem iterNext_len {it it' : RawIter} {o : Option Addr} {h h' : Heap α} (e : (iterNext it).run A h = .ok (o, it') h') : it'.len = it.len - 1 := by
  rw [imp_iterNext] at e
  simp only [RawIter.next] at e
  split at e
  · cases e; omega
  · simp only [M.bind_apply] at e
    cases e1 : Trees.uncountedNext it.curr h with
    | ok q h1 => rw [e1] at e; cases e; rfl
    | err x h1 => rw [e1] at e; cases e

theorem cst_iter (a : Addr) : Cst A (iter a : Prog α _) 2 := by
  refine CI.cst fun u => ?_
  unfold iter; unf
  ci

theorem cst_iterNth : ∀ (k : Nat) (it : RawIter), Cst A (iterNth k it : Prog α _) (k + 1)
  | 0, it => (cst_iterNext it).mono (by omega)
  | k+1, it => by
    unfold iterNth
    refine Cst.mono (Cst.bind (n := 1) (k := k + 1) ((cst_iterNext it).mono (by omega)) fun q => ?_) (by omega)
    rcases q with ⟨o, it'⟩
    cases o with
    | none => exact (Cst.pure _).mono (Nat.zero_le _)
    | some c => exact cst_iterNth k it'

/-- The work to find the node at a path: for every step, `iter()` and `nth(i)`. -/
def pathCost (p : Path) : Nat := (p.map (· + 3)).sum

theorem cst_locate : ∀ (p : Path) (a : Addr), Cst A (locate a p : Prog α _) (pathCost p)
  | [], a => (Cst.pure _).mono (Nat.zero_le _)
  | i :: p, a => by
    unfold locate
    refine Cst.mono (Cst.bind (cst_iter a) fun it => Cst.bind (cst_iterNth i it) (k := pathCost p) fun q => ?_) (by simp [pathCost]; omega)
    rcases q with ⟨o, it'⟩
    cases o with
    | none => exact (Cst.pure _).mono (Nat.zero_le _)
    | some c => exact cst_locate p c

theorem cst_iterCollect : ∀ (k : Nat) (it : RawIter), Cst A (iterCollect k it : Prog α _) (k + 1)
  | 0, it => by
    unfold iterCollect
    refine Cst.mono (Cst.bind (n := 1) (k := 0) ((cst_iterNext it).mono (by omega)) fun q => ?_) (by omega)
    rcases q with ⟨o, it'⟩
    cases o with
    | none => exact (Cst.pure _)
    | some c => exact (Cst.throw _)
  | k+1, it => by
    unfold iterCollect
    refine Cst.mono (Cst.bind (n := 1) (k := k + 1) ((cst_iterNext it).mono (by omega)) fun q => ?_) (by omega)
    rcases q with ⟨o, it'⟩
    cases o with
    | none => exact (Cst.pure _).mono (Nat.zero_le _)
    | some c => exact Cst.mono (Cst.bind (cst_iterCollect k it') fun _ => Cst.pure _) (by omega)

theorem cst_dataRef (a : Addr) : Cst A (dataRef a : Prog α _) 1 := by
  refine CI.cst fun u => ?_
  unfold dataRef
  ci

theorem cst_readMany {f : Addr → Prog α β} {n : Nat} (hf : ∀ a, Cst A (f a) n) : ∀ l : List Addr, Cst A (readMany f l) (n * l.length)
  | [] => (Cst.pure _).mono (Nat.zero_le _)
  | a :: l => by
    unfold readMany
    refine Cst.mono (Cst.bind (hf a) fun _ => Cst.bind (cst_readMany hf l) fun _ => Cst.pure _) (by simp [Nat.mul_add]; omega)

theorem cst_decrRef (v : Nat) : Cst A (decrRef v : Prog α _) 3 := by
  refine CI.cst fun u => ?_
  unfold decrRef
  ci

theorem CI.decrRef (v : Nat) (k : Nat) {f : Unit → Prog α β} (hf : ∀ x, CI A u (f x) k) : CI A u (Fine.decrRef v >>= f) (k + 3) := by
  unfold Fine.decrRef
  ci
  all_goals (try exact (hf _).mono (by omega))

theorem cst_dropNode (a : Addr) : Cst A (dropNode a : Prog α _) 6 := by
  refine CI.cst fun u => ?_
  unfold dropNode
  ci
  · exact (cst_decrRef _).ci.mono (by omega)
  · exact (CI.decrRef _ 1 (fun _ => CI.logDrop' _ 0))

theorem cst_dataMutSet (a : Addr) (d : α) : Cst A (dataMutSet a d : Prog α _) 3 := by
  refine CI.cst fun u => ?_
  unfold dataMutSet
  ci

theorem cst_intoData (a : Addr) : Cst A (intoData a : Prog α _) 5 := by
  refine CI.cst fun u => ?_
  unfold intoData
  ci
  exact (CI.decrRef _ 0 (fun _ => CI.pure _ _))

theorem cst_makeNode (d : Data α) : Cst A (makeNode d : Prog α _) 1 := CI.cst fun u => CI.makeNode' d 0
theorem cst_newVec (n : Nat) : Cst A (newVec n : Prog α _) 1 := CI.cst fun u => CI.newVec' n 0

theorem cst_abandon (a : Addr) : Cst A (abandon a : Prog α _) 3 := by
  refine CI.cst fun u => ?_
  unfold abandon
  ci
  exact ((cst_makeNode _).bind fun _ => Cst.pure _).ci

theorem cst_vecMakeNode (v : Nat) (p : Option Addr) (i : Nat) (d : Data α) (s : Size) : Cst A (vecMakeNode v p i d s : Prog α _) 6 := by
  refine CI.cst fun u => ?_
  unfold vecMakeNode
  ci

theorem cst_appendChild (v p c : Nat) (d : α) (s : Size) : Cst A (appendChild v p c d s : Prog α _) 11 := by
  unfold appendChild makePiledNode
  refine Cst.mono (Cst.bind (n := 1) (k := 10) (CI.cst fun u => CI.vecNode' _ _ 0) fun a =>
    Cst.bind (cst_vecMakeNode _ _ _ _ _) (k := 4) fun b => CI.cst fun u => ?_) (by omega)
  unf
  ci

end Fine
end Trees
