import Verif.Proof.SharedLedger
import Verif.Props.SharedProgram
import Verif.Props.Ledger
/-
C55: no item is lost, duplicated or destroyed twice, over whole histories with shared nodes.
-/
namespace Trees
set_option linter.unusedSimpArgs false
set_option linter.unusedVariables false
variable {α : Type}
open RTree Ledger

/-- `S` lists the shared nodes: those in the tree of some handle, every node once, with its item. -/
def SharedNodes (m : RMachine α) (S : List (Addr × α)) : Prop :=
  (S.map Prod.fst).Nodup ∧ ∀ x, x ∈ S ↔ ∃ k t, m.look k = some t ∧ x ∈ t.pre

/-- Items a call brings in. -/
def RMachine.brings (m : RMachine α) (op : ROp α) : List α :=
  bringsS m.excl.store (fun k => (m.look k).map RTree.plain) (rstep m op).returned op

/-- Items a call hands out. -/
def RMachine.takes (m : RMachine α) (op : ROp α) : List α := takesS m.excl.store op

/-- The items brought in and handed out over the run of a program. -/
def ledgerR : RMachine α → List (ROp α) → List α × List α
  | _, [] => ([], [])
  | m, op :: ops =>
    match rstep m op with
    | .ok m' _ => (m.brings op ++ (ledgerR m' ops).1, m.takes op ++ (ledgerR m' ops).2)
    | .panic m' => (m.brings op ++ (ledgerR m' ops).1, m.takes op ++ (ledgerR m' ops).2)
    | _ => ledgerR m ops

theorem SSim.sharedNodes {φ : Nat → Addr} {m : RMachine α} {s : SStore α} (S : SSim φ m s) :
    SharedNodes m ((preL s.roots).map fun x => (φ x.1, x.2)) := by
  refine ⟨by simpa [List.map_map, Function.comp_def, idsL] using S.nd, fun x => ?_⟩
  constructor
  · intro hx
    obtain ⟨y, hy, rfl⟩ := List.mem_map.mp hx
    rw [preL_eq, List.mem_flatMap] at hy
    obtain ⟨t, ht, hy⟩ := hy
    obtain ⟨k, hk⟩ := S.held t ht
    obtain ⟨u, hu, e, hl⟩ := S.rc k _ hk
    have : u = t := sub_unique S.idsNodup hu (root_mem_subsL ht) e
    subst this
    exact ⟨k, _, hl, by rw [relab_pre]; exact List.mem_map_of_mem hy⟩
  · rintro ⟨k, t, hk, hx⟩
    rcases S.cases k with ⟨u, h1, h2, h3, -⟩ | ⟨h1, h2⟩
    · rw [h3] at hk; cases hk
      rw [relab_pre] at hx
      obtain ⟨y, hy, rfl⟩ := List.mem_map.mp hx
      refine List.mem_map_of_mem ?_
      rw [← subsL_data]
      rw [← subs_data] at hy
      obtain ⟨v, hv, rfl⟩ := List.mem_map.mp hy
      exact List.mem_map_of_mem (subsL_trans h1 hv)
    · rw [h1] at hk; simp at hk

theorem SSim.brings_eq {φ : Nat → Addr} {m : RMachine α} {s : SStore α} (S : SSim φ m s) {op : ROp α} (h : (rstep m op).returned = (sstep s op).returned) :
    m.brings op = bringsS s.excl (fun k => (s.look k).map RTree.plain) (sstep s op).returned op := by
  have e : (fun k => (m.look k).map RTree.plain) = fun k => (s.look k).map RTree.plain := by
    funext k
    rw [S.look_eq]
    cases s.look k with
    | none => rfl
    | some t => simp only [Option.map_some, RTree.plain, RTree.relab, map_map']; rfl
  rw [RMachine.brings, h, e, S.excl]

theorem SSim.excl_fresh {φ : Nat → Addr} {m : RMachine α} {s : SStore α} (S : SSim φ m s) : ∀ z, s.excl.fresh ≤ z → s.excl.vars z = none := by
  intro z hz
  obtain ⟨G, K, T, I, -⟩ := S.reach.si
  rw [S.excl] at hz ⊢
  show m.excl.view z = none
  have := (I.fr z hz).1
  simp only [Machine.view, RMachine.excl, this]

/-- The specification and its ledger over a program. -/
theorem SSim.ledger {φ : Nat → Addr} (a : α) : ∀ (ops : List (ROp α)) {m : RMachine α} {s : SStore α}, (∃ φ, SSim φ m s) → BoxedCalls m ops = true →
    Allowed (runProg sstep s ops).2 →
    ch a (runProg sstep s ops).1.excl + cs a (runProg sstep s ops).1.roots + cn a (runProg sstep s ops).1.excl.dropped + cn a (ledgerR m ops).2 =
      ch a s.excl + cs a s.roots + cn a s.excl.dropped + cn a (ledgerR m ops).1
  | [], m, s, S, _, _ => by simp [runProg, ledgerR]
  | op :: ops, m, s, S, h1, h2 => by
    obtain ⟨φ', S⟩ := S
    simp only [BoxedCalls, Bool.and_eq_true] at h1
    have hb : sstep s op ≠ .bad := by
      intro e
      simp only [runProg, e, Allowed] at h2
    have hm := S.call op (boxedOnly_of h1.1) hb
    have h1' := h1.2
    have hbal := sspec_bal S.excl_fresh S.idsNodup op
    simp only [runProg, ledgerR] at h2 ⊢
    cases hr : rstep m op with
    | ok m' o =>
      cases hs : sstep s op with
      | ok s' o' =>
        have eb := S.brings_eq (op := op) (by rw [hr, hs]; rfl)
        rw [hr, hs] at hm
        rw [hr] at h1'
        rw [hs] at h2 hbal
        rw [hs] at eb
        have ih := SSim.ledger (φ := φ) a ops hm.2 h1' h2
        have h3 := hbal a
        rw [← eb] at h3
        have e5 : m.takes op = takesS s.excl op := by rw [RMachine.takes, S.excl]
        simp only [cn_append, e5]
        omega
      | panic s' => rw [hr, hs] at hm; exact hm.elim
      | rejected => rw [hr, hs] at hm; exact hm.elim
      | bad => exact absurd hs hb
    | panic m' =>
      cases hs : sstep s op with
      | panic s' =>
        have eb := S.brings_eq (op := op) (by rw [hr, hs]; rfl)
        rw [hr, hs] at hm
        rw [hr] at h1'
        rw [hs] at h2 hbal
        rw [hs] at eb
        have ih := SSim.ledger (φ := φ) a ops hm h1' h2
        have h3 := hbal a
        rw [← eb] at h3
        have e5 : m.takes op = takesS s.excl op := by rw [RMachine.takes, S.excl]
        simp only [cn_append, e5]
        omega
      | ok s' o' => rw [hr, hs] at hm; exact hm.elim
      | rejected => rw [hr, hs] at hm; exact hm.elim
      | bad => exact absurd hs hb
    | rejected =>
      cases hs : sstep s op with
      | rejected =>
        rw [hr] at h1'
        rw [hs] at h2
        exact SSim.ledger (φ := φ) a ops ⟨φ', S⟩ h1' h2
      | ok s' o' => rw [hr, hs] at hm; exact hm.elim
      | panic s' => rw [hr, hs] at hm; exact hm.elim
      | bad => exact absurd hs hb
    | bad => rw [hr] at hm; cases hs : sstep s op <;> rw [hs] at hm <;> exact hm.elim

/-- **C55** Over every program (as in C54): the items brought in are exactly the items in exclusive values, the items of the shared
nodes (every node counted once, however many handles lead to it), the items destroyed and the items handed out. -/
theorem c55_program (ops : List (ROp α)) (h1 : BoxedCalls RMachine.empty ops = true) (h2 : Allowed (runProg sstep SStore.empty ops).2)
    {m : RMachine α} (hm : (runProg rstep RMachine.empty ops).1 = m) :
    ∃ S, SharedNodes m S ∧ (m.excl.held ++ S.map Prod.snd ++ m.excl.destroyed ++ (ledgerR RMachine.empty ops).2).Perm (ledgerR RMachine.empty ops).1 := by
  obtain ⟨-, φ, g2⟩ := SSim.program (φ := fun _ => 0) ops ⟨_, ssim_empty⟩ h1 h2
  rw [hm] at g2
  refine ⟨_, g2.sharedNodes, eq_perm fun a => ?_⟩
  have h := SSim.ledger (φ := fun _ => 0) a ops ⟨_, ssim_empty⟩ h1 h2
  have e1 : ch a (runProg sstep SStore.empty ops).1.excl = cn a m.excl.held := by rw [g2.excl]; rfl
  have e2 : (runProg sstep SStore.empty ops).1.excl.dropped = m.excl.destroyed := by rw [g2.excl]; rfl
  have e3 : ((preL (runProg sstep SStore.empty ops).1.roots).map fun x => (φ x.1, x.2)).map Prod.snd =
    (preL (runProg sstep SStore.empty ops).1.roots).map Prod.snd := by simp [List.map_map, Function.comp_def]
  have e4 : ch a (SStore.empty : SStore α).excl = 0 := rfl
  have e5 : cs a (SStore.empty : SStore α).roots = 0 := rfl
  have e6 : cn a (SStore.empty : SStore α).excl.dropped = 0 := rfl
  simp only [cn_append, e3]
  rw [e1, e2, e4, e5, e6] at h
  have e7 : cs a (runProg sstep SStore.empty ops).1.roots = cn a ((preL (runProg sstep SStore.empty ops).1.roots).map Prod.snd) := rfl
  omega

/-- **C55** When no variable holds an exclusive value or a handle, every item that was brought in has been destroyed or handed out,
exactly once: handles, weak handles, guards and iterators leak nothing. -/
theorem c55_end (ops : List (ROp α)) (h1 : BoxedCalls RMachine.empty ops = true) (h2 : Allowed (runProg sstep SStore.empty ops).2)
    {m : RMachine α} (hm : (runProg rstep RMachine.empty ops).1 = m) (he : ∀ x < m.fresh, m.env x = none) (hk : ∀ k < m.fresh, m.look k = none) :
    (m.excl.destroyed ++ (ledgerR RMachine.empty ops).2).Perm (ledgerR RMachine.empty ops).1 := by
  obtain ⟨S, ⟨-, hS⟩, hp⟩ := c55_program ops h1 h2 hm
  obtain ⟨-, φ, g2⟩ := SSim.program (φ := fun _ => 0) ops ⟨_, ssim_empty⟩ h1 h2
  rw [hm] at g2
  have e1 : S = [] := by
    apply List.eq_nil_iff_forall_not_mem.mpr
    intro x hx
    obtain ⟨k, t, hl, -⟩ := (hS x).mp hx
    have hk' := hk k
    rw [hl] at hk'
    simp only [RMachine.look] at hl
    split at hl
    · rename_i r hr
      have := hk' (si_refs_lt g2.reach.si hr)
      simp at this
    · simp at hl
  have e2 : m.excl.held = [] := by
    simp only [Machine.held, List.flatMap_eq_nil_iff, List.mem_range]
    intro x hx
    simp [Machine.view, RMachine.excl, he x hx]
  rw [e1, e2] at hp
  simpa using hp

/-- **C55** If the items brought in are pairwise different, then no item is in two places, none was destroyed twice, and no item
that was destroyed or handed out is still accessible. -/
theorem c55_once (ops : List (ROp α)) (h1 : BoxedCalls RMachine.empty ops = true) (h2 : Allowed (runProg sstep SStore.empty ops).2)
    {m : RMachine α} (hm : (runProg rstep RMachine.empty ops).1 = m) (hd : (ledgerR RMachine.empty ops).1.Nodup) :
    ∃ S, SharedNodes m S ∧ (m.excl.held ++ S.map Prod.snd ++ m.excl.destroyed ++ (ledgerR RMachine.empty ops).2).Nodup := by
  obtain ⟨S, hS, hp⟩ := c55_program ops h1 h2 hm
  exact ⟨S, hS, hp.nodup_iff.mpr hd⟩

/-- **C55** for programs that build no block: no condition on the memory. -/
theorem c55_no_blocks (ops : List (ROp α)) (h1 : NoBlocks ops = true) (h2 : Allowed (runProg sstep SStore.empty ops).2)
    {m : RMachine α} (hm : (runProg rstep RMachine.empty ops).1 = m) :
    ∃ S, SharedNodes m S ∧ (m.excl.held ++ S.map Prod.snd ++ m.excl.destroyed ++ (ledgerR RMachine.empty ops).2).Perm (ledgerR RMachine.empty ops).1 :=
  c55_program ops (boxedCalls_of_noVec (φ := fun _ => 0) ops ⟨_, ssim_empty⟩ (fun _ => rfl) h1 h2) h2 hm

/-! ### The hypotheses are met -/

/-- The program of C54 in the middle: node `2` (now `20`, with `3` and `7` below it) detached, handles to the root and to `4`. -/
def progMid : List (ROp Nat) := progDemo.take 28

theorem progMid_boxed : BoxedCalls RMachine.empty progMid = true := by decide +kernel
theorem progMid_allowed : Allowed (runProg sstep SStore.empty progMid).2 := by
  have : (runProg sstep SStore.empty progMid).2 = progDemoOut.take 28 := by decide +kernel
  rw [this]; simp [progDemoOut, Allowed]
theorem progMid_ledger : ledgerR RMachine.empty progMid = ([1, 2, 3, 4, 9, 20, 7], []) := by decide +kernel
/-- Its final state. -/
def midState : RMachine Nat := (runProg rstep RMachine.empty progMid).1
theorem midState_eq : (runProg rstep RMachine.empty progMid).1 = midState := by unfold midState; exact Eq.refl _
theorem midState_held : midState.excl.held = [] := by decide +kernel
theorem midState_destroyed : midState.excl.destroyed = [9, 2] := by decide +kernel
attribute [irreducible] midState progMid
example : (ledgerR RMachine.empty progMid).1.Nodup := by rw [progMid_ledger]; decide
/-- ... so the shared nodes hold the items `1`, `3`, `4`, `7`, `20`. -/
example : ∃ S, SharedNodes midState S ∧ (S.map Prod.snd).Perm [1, 3, 4, 7, 20] := by
  obtain ⟨S, hS, hp⟩ := c55_program progMid progMid_boxed progMid_allowed midState_eq
  refine ⟨S, hS, ?_⟩
  rw [midState_held, midState_destroyed, progMid_ledger] at hp
  simp only [List.nil_append, List.append_nil] at hp
  rw [List.perm_iff_count] at hp ⊢
  intro a
  have := hp a
  simp only [List.count_append, List.count_cons, List.count_nil] at this ⊢
  omega

/-- The whole program, and everything dropped. -/
def progEnd : List (ROp Nat) := progDemo ++ [.excl (.drop 15), .drop 10, .drop 13]

theorem progEnd_boxed : BoxedCalls RMachine.empty progEnd = true := by decide +kernel
theorem progEnd_allowed : Allowed (runProg sstep SStore.empty progEnd).2 := by
  have : (runProg sstep SStore.empty progEnd).2 = progDemoOut ++ [.ok () .unit, .ok () .unit, .ok () .unit] := by decide +kernel
  rw [this]; simp [progDemoOut, Allowed]
/-- Its final state. -/
def endState : RMachine Nat := (runProg rstep RMachine.empty progEnd).1
theorem endState_eq : (runProg rstep RMachine.empty progEnd).1 = endState := by unfold endState; exact Eq.refl _
theorem endState_env : ∀ x < endState.fresh, (endState.env x).isNone = true := by decide +kernel
theorem endState_look : ∀ k < endState.fresh, (endState.look k).isNone = true := by decide +kernel
attribute [irreducible] endState progEnd
example : (endState.excl.destroyed ++ (ledgerR RMachine.empty progEnd).2).Perm (ledgerR RMachine.empty progEnd).1 :=
  c55_end progEnd progEnd_boxed progEnd_allowed endState_eq (fun x hx => by simpa using endState_env x hx) (fun x hx => by simpa using endState_look x hx)

end Trees
