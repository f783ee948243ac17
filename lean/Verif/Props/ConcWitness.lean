import Verif.Props.Conc
/-
C61: the hypotheses are met by a concrete case, and the property without `Separate` is false.
-/
namespace Trees
set_option linter.unusedSimpArgs false
set_option linter.unusedVariables false

/-- Two trees copied from a third one, each copy in a block of its own. -/
def concOps : List (Op Nat) :=
  [.treeNew 1, .treeNew 2, .pushBack 0 [] 1, .mapBfs 0 .root (fun _ d => d + 10), .mapBfs 0 .root (fun _ d => d + 20)]

def concM : Machine Nat := ((execA Alloc.fresh Machine.empty concOps).map Prod.fst).getD Machine.empty

/-- The first copy goes to thread 0, everything else to thread 1. -/
def concOwn (x : Var) : Fin 2 := if x = 2 then 0 else 1

/-- Each thread has an arena of the allocator. -/
def concA (i : Fin 2) : Alloc := ⟨fun a => if a < 6 then a else a + 1000 * i, fun v => if v < 2 then v else v + 1000 * i⟩

/-- Thread 0 takes its tree apart and destroys it; thread 1 enlarges its copy, copies that one again and destroys all. -/
def concProg (i : Fin 2) : List (Op Nat) :=
  if i = 0 then [.popFront 2 [], .degree 2 [], .drop 2, .drop 4]
  else [.treeNew 7, .pushBack 3 [0] 4, .mapBfs 3 .root (fun _ d => d + 1), .drop 0, .drop 3, .childData 5 [], .drop 5]

/-- The threads take turns. -/
def concSched (k : Nat) : List (Fin 2) := (List.replicate k [(0 : Fin 2), 1]).flatten


/-- The program of a thread has ended. -/
def Fine.Prog.ended {α β : Type} : Fine.Prog α β → Bool
  | .ret _ => true
  | _ => false


namespace Proof
variable {α : Type}

/-- A set of nodes closed under first children and next siblings. -/
def closedB (h : Heap α) (S : List Addr) : Bool := S.all fun a => (h.head a).all (S.contains ·) && (h.next a).all (S.contains ·)

theorem closed_get {h : Heap α} {S : List Addr} (hc : closedB h S = true) {a : Addr} (ha : a ∈ S) :
    (∀ c, h.head a = some c → c ∈ S) ∧ ∀ c, h.next a = some c → c ∈ S := by
  have := List.all_eq_true.mp hc a ha
  simp only [Bool.and_eq_true] at this
  refine ⟨fun c e => ?_, fun c e => ?_⟩
  · have := this.1; rw [e] at this; simpa using this
  · have := this.2; rw [e] at this; simpa using this

theorem closed_next {h : Heap α} {S : List Addr} (hc : closedB h S = true) {it it' : RawIter} {o : Option Addr} {h' : Heap α}
    (hi : ∀ c, it.curr = some c → c ∈ S) (e : it.next h = .ok (o, it') h') : h' = h ∧ (∀ c, o = some c → c ∈ S) ∧ ∀ c, it'.curr = some c → c ∈ S := by
  obtain ⟨curr, len⟩ := it
  simp only [RawIter.next] at e
  split at e
  · cases e; exact ⟨rfl, by simp, hi⟩
  · cases curr with
    | none => cases e; exact ⟨rfl, by simp, by simp⟩
    | some c =>
      simp only [uncountedNext, getNext, rd, M.bind_apply] at e
      cases l : h.live c with
      | false => rw [l] at e; cases e
      | true =>
        rw [l] at e
        cases e
        exact ⟨rfl, fun d hd => by cases hd; exact hi c rfl, fun d hd => (closed_get hc (hi c rfl)).2 d hd⟩

theorem closed_nth {h : Heap α} {S : List Addr} (hc : closedB h S = true) (k : Nat) {it it' : RawIter} {o : Option Addr} {h' : Heap α}
    (hi : ∀ c, it.curr = some c → c ∈ S) (e : it.nth k h = .ok (o, it') h') : h' = h ∧ ∀ c, o = some c → c ∈ S := by
  induction k generalizing it with
  | zero => exact ⟨(closed_next hc hi e).1, (closed_next hc hi e).2.1⟩
  | succ k ih =>
    unfold RawIter.nth at e
    rw [M.bind_apply] at e
    cases e1 : it.next h with
    | err x h1 => rw [e1] at e; cases e
    | ok q h1 =>
      rw [e1] at e
      obtain ⟨o1, it1⟩ := q
      obtain ⟨rfl, h2, h3⟩ := closed_next hc hi e1
      cases o1 with
      | none => cases e; exact ⟨rfl, by simp⟩
      | some c => exact ih h3 e

theorem closed_locate {h : Heap α} {S : List Addr} (hc : closedB h S = true) (p : Path) {a b : Addr} {h' : Heap α} (ha : a ∈ S)
    (e : locate a p h = .ok (some b) h') : b ∈ S := by
  induction p generalizing a with
  | nil => cases e; exact ha
  | cons i p ih =>
    unfold locate at e
    rw [M.bind_apply] at e
    have hi : ∀ it h1, iter a h = .ok it h1 → h1 = h ∧ ∀ c, it.curr = some c → c ∈ S := by
      intro it h1 ei
      simp only [iter, getHead, degree, getSize, rd, M.bind_apply] at ei
      cases l : h.live a with
      | false => rw [l] at ei; cases ei
      | true =>
        simp only [l, if_true, Res.bind] at ei
        cases hh : h.head a with
        | none => rw [hh] at ei; cases ei; exact ⟨rfl, by simp⟩
        | some c =>
          rw [hh] at ei
          simp only [M.bind_apply, rd, l, if_true, Res.bind] at ei
          cases ei
          exact ⟨rfl, fun d hd => by cases hd; exact (closed_get hc ha).1 c hh⟩
    cases e1 : iter a h with
    | err x h1 => rw [e1] at e; cases e
    | ok it h1 =>
      rw [e1] at e
      obtain ⟨rfl, h2⟩ := hi it h1 e1
      simp only [Res.bind] at e
      rw [M.bind_apply] at e
      cases e2 : it.nth i h1 with
      | err x h3 => rw [e2] at e; cases e
      | ok q h3 =>
        rw [e2] at e
        obtain ⟨o, it'⟩ := q
        obtain ⟨rfl, h4⟩ := closed_nth hc i h2 e2
        cases o with
        | none => cases e
        | some c => exact ih (h4 c rfl) e

theorem closed_nodeAt {m : Machine α} {S : List Addr} (hc : closedB m.heap S = true) {x : Var} (hx : (m.env x).all (fun hd => S.contains hd.addr) = true)
    {p : Path} {b : Addr} (e : m.nodeAt x p = some b) : b ∈ S := by
  simp only [Machine.nodeAt] at e
  cases he : m.env x with
  | none => rw [he] at e; cases e
  | some hd =>
    rw [he] at e hx
    have ha : hd.addr ∈ S := by simpa using hx
    dsimp only at e
    cases e1 : locate hd.addr p m.heap with
    | err y h1 => rw [e1] at e; cases e
    | ok o h1 =>
      rw [e1] at e
      cases e
      exact closed_locate hc p ha e1

theorem spawned_none {n : Nat} {A0 : Alloc} {ops0 : List (Op α)} {m : Machine α} {A : Fin n → Alloc} (h : Spawned A0 ops0 m A) {y : Var} (hy : m.fresh ≤ y) :
    m.env y = none := by
  obtain ⟨os0, e0⟩ := spawned_run h
  have := execA_sim A0 ops0 _ _ (amrel_empty A0) .init
  rw [e0] at this
  obtain ⟨-, r, hr⟩ := this
  obtain ⟨K, M⟩ := reachable_minv hr
  have h1 := r.at y
  rw [M.fr y (by rw [← r.fresh]; exact hy)] at h1
  exact h1

end Proof

theorem conc_spawned : Spawned Alloc.fresh concOps concM concA := by
  refine ⟨?_, ?_, ?_⟩
  · have h : (execA Alloc.fresh Machine.empty concOps).isSome = true := by decide +kernel
    simp only [concM]
    cases e : execA Alloc.fresh Machine.empty concOps with
    | none => rw [e] at h; cases h
    | some q => rfl
  · intro i a ha
    have h : concM.heap.nextAddr = 6 := by decide +kernel
    simp [concA, h ▸ ha, Alloc.fresh]
  · intro i v hv
    have h : concM.heap.nextVec = 2 := by decide +kernel
    simp [concA, h ▸ hv, Alloc.fresh]

theorem conc_other (y : Var) (hy : y ≠ 2) : (concM.env y).all (fun hd => [0, 1, 4, 5].contains hd.addr) = true := by
  have h : concM.fresh = 4 := by decide +kernel
  rcases Nat.lt_or_ge y 4 with h1 | h1
  · have : y = 0 ∨ y = 1 ∨ y = 3 := by simp only [Var] at *; omega
    rcases this with rfl | rfl | rfl <;> decide +kernel
  · rw [Proof.spawned_none conc_spawned (h ▸ h1)]; rfl

theorem conc_block2 {p : Path} {v : Nat} (e : concM.blockAt 2 p = some v) : v = 0 := by
  simp only [Machine.blockAt] at e
  cases hn : concM.nodeAt 2 p with
  | none => rw [hn] at e; cases e
  | some a =>
    have ha := Proof.closed_nodeAt (S := [2, 3]) (by decide +kernel) (by decide +kernel) hn
    rw [hn] at e
    have h2 : ∀ a ∈ [2, 3], blockOf (concM.heap.data a) = some 0 := by decide +kernel
    have := h2 a ha
    rw [Option.bind_some] at e
    rw [e] at this
    cases this; rfl

theorem conc_block {y : Var} (hy : y ≠ 2) {p : Path} {v : Nat} (e : concM.blockAt y p = some v) : v ≠ 0 := by
  simp only [Machine.blockAt] at e
  cases hn : concM.nodeAt y p with
  | none => rw [hn] at e; cases e
  | some a =>
    have ha := Proof.closed_nodeAt (S := [0, 1, 4, 5]) (by decide +kernel) (conc_other y hy) hn
    rw [hn] at e
    have h2 : ∀ a ∈ [0, 1, 4, 5], blockOf (concM.heap.data a) ≠ some 0 := by decide +kernel
    have := h2 a ha
    rw [Option.bind_some] at e
    rw [e] at this
    rintro rfl
    exact this rfl

theorem conc_separate : concM.Separate concOwn := by
  intro x y p q v hne h1 h2
  by_cases hx : x = 2
  · subst hx
    have hy : y ≠ 2 := by rintro rfl; exact hne rfl
    exact conc_block hy h2 (conc_block2 h1)
  · by_cases hy : y = 2
    · subst hy
      exact conc_block hx h1 (conc_block2 h2)
    · exact hne (by simp [concOwn, hx, hy])

/-- Both values are in blocks, so `Separate` says something. -/
example : concM.blockAt 2 [0] = some 0 ∧ concM.blockAt 3 [] = some 1 := by decide +kernel

/-- The threads, in turns, run to their ends, and have destroyed their items. -/
example : ((Fine.start concM concOwn concProg).run concA (concSched 200)).map (fun s => ((s.th 0).prog.ended, (s.th 0).log, (s.th 1).prog.ended, (s.th 1).log)) =
    some (true, [11, 12], true, [2, 1, 7, 22, 21, 8, 23, 22]) := by decide +kernel

/-- Threads that read the same tree, in turns. -/
example : ((Fine.share concM fun (i : Fin 2) => if i = 0 then [.childData 2 [], .bfs 2 .root 2] else [.data 2 .root, .degree 2 [], .childData 3 []]).run concA (concSched 60)).map
    (fun s => ((s.th 0).prog.ended, (s.th 1).prog.ended)) = some (true, true) := by decide +kernel

/-! ### Without `Separate` -/

/-- A tree of two nodes in one block; the child has been popped. -/
def raceOps : List (Op Nat) := [.treeNew 1, .treeNew 2, .pushBack 0 [] 1, .mapBfs 0 .root (fun _ d => d), .drop 0, .popFront 2 []]

def raceM : Machine Nat := ((execA Alloc.fresh Machine.empty raceOps).map Prod.fst).getD Machine.empty

/-- The child goes to another thread; both threads destroy what they have. -/
def raceSys : Fine.Sys 2 Nat (Fine.Vars × List (Outcome Unit Nat)) :=
  Fine.start raceM (fun x => if x = 2 then 0 else 1) (fun i => if i = 0 then [.drop 2] else [.drop 3])

def raceA (i : Fin 2) : Alloc := ⟨fun a => if a < 4 then a else a + 1000 * i, fun v => if v < 1 then v else v + 1000 * i⟩

/-- Both threads are about to write the count of a block. -/
def bothSet (s : Fine.Sys 2 Nat (Fine.Vars × List (Outcome Unit Nat))) : Bool :=
  match (s.th 0).prog, (s.th 1).prog with
  | .acc (.setRef v _) _, .acc (.setRef w _) _ => v == w
  | _, _ => false

theorem bothSet_race {s : Fine.Sys 2 Nat (Fine.Vars × List (Outcome Unit Nat))} (h : bothSet s = true) : s.Race := by
  simp only [bothSet] at h
  split at h
  · rename_i v c k w d l e1 e2
    have : v = w := by simpa using h
    subst this
    exact ⟨0, 1, _, _, _, _, by decide, e1, e2, .inl rfl, .inr (.inl ⟨v, rfl, rfl⟩)⟩
  · cases h

/-- Five accesses of each. -/
def raceSched : List (Fin 2) := List.replicate 5 0 ++ List.replicate 5 1

theorem race_spawned : Spawned Alloc.fresh raceOps raceM raceA := by
  refine ⟨?_, ?_, ?_⟩
  · have h : (execA Alloc.fresh Machine.empty raceOps).isSome = true := by decide +kernel
    simp only [raceM]
    cases e : execA Alloc.fresh Machine.empty raceOps with
    | none => rw [e] at h; cases h
    | some q => rfl
  · intro i a ha
    have h : raceM.heap.nextAddr = 4 := by decide +kernel
    simp [raceA, h ▸ ha, Alloc.fresh]
  · intro i v hv
    have h : raceM.heap.nextVec = 1 := by decide +kernel
    have := h ▸ hv
    simp [raceA, Alloc.fresh]; omega

/-- **C61** fails for parts of one block: a tree and a child popped from it, in different threads, and each thread destroys what it has: there is a
data race. -/
theorem c61_refuted_race : ∃ sched s, raceSys.run raceA sched = some s ∧ s.Race := by
  have h : (raceSys.run raceA raceSched).any bothSet = true := by decide +kernel
  cases e : raceSys.run raceA raceSched with
  | none => rw [e] at h; cases h
  | some s => rw [e] at h; exact ⟨raceSched, s, e, bothSet_race h⟩

/-- What is left of the block when the threads have ended. -/
def leftOver (s : Fine.Sys 2 Nat (Fine.Vars × List (Outcome Unit Nat))) : Bool :=
  match (s.th 0).prog, (s.th 1).prog with
  | .ret _, .ret _ => s.mem.live 2 && s.mem.live 3
  | _, _ => false

/-- **C61** fails for parts of one block: even if every access takes effect at once, a decrement is lost, and the block is never released. The same
threads one after the other release everything. -/
theorem c61_refuted_leak : (∃ sched s, raceSys.run raceA sched = some s ∧ (∀ i, ∃ v os, (s.th i).prog = .ret (v, os)) ∧ s.mem.live 2 = true) ∧
    ∃ sched s, raceSys.run raceA sched = some s ∧ (∀ i, ∃ v os, (s.th i).prog = .ret (v, os)) ∧ s.mem.live 2 = false := by
  have key : ∀ (b : Bool) (l : List (Fin 2)), (raceSys.run raceA l).any (fun s => (s.th 0).prog.ended && (s.th 1).prog.ended && (s.mem.live 2 == b)) = true →
      ∃ sched s, raceSys.run raceA sched = some s ∧ (∀ i, ∃ v os, (s.th i).prog = .ret (v, os)) ∧ s.mem.live 2 = b := by
    intro b l h
    cases e : raceSys.run raceA l with
    | none => rw [e] at h; cases h
    | some s =>
      rw [e] at h
      simp only [Option.any_some, Bool.and_eq_true, beq_iff_eq] at h
      refine ⟨l, s, e, fun i => ?_, h.2⟩
      have hi : (s.th i).prog.ended = true := by
        have : i = 0 ∨ i = 1 := by omega
        rcases this with rfl | rfl
        · exact h.1.1
        · exact h.1.2
      cases e2 : (s.th i).prog with
      | ret q => exact ⟨q.1, q.2, rfl⟩
      | fail x => rw [e2] at hi; cases hi
      | acc a k => rw [e2] at hi; cases hi
  refine ⟨key true (raceSched ++ raceSched) ?_, key false (List.replicate 10 0 ++ List.replicate 10 1) ?_⟩ <;> decide +kernel

end Trees
