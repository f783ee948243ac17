import Verif.Props.SharedTraits
import Verif.Props.StackRc
import Verif.Proof.StackRcTraits
import Verif.Proof.StackRcCmp
import Verif.Proof.StackRcFmt
import Verif.Props.Format
import Verif.Props.SharedCases
/-
C64 for shared nodes: nested calls of `Hash`, `Display`, `Debug` and the comparisons of `RcNode`.  The (second) argument of `rcHash`, `rcFmt`, `rcEq`, `rcCmp`, `rcPcmp`, `rcFmtW`, `rcDebugW` (Model/Format.lean) (Model/RcTraits.lean) is the
number of nested calls there is room for.
-/
namespace Trees
variable {α σ : Type}
open Classical RTree

section
variable {m : RMachine α} (hm : SReachable m) {j : Var} {t : RTree (Addr × α)} {r : RcRef} (hj : m.look j = some t) (hr : m.refs j = some (.rc r))
include hm hj hr

/-- **C64** `Hash` of a shared node runs (returns or panics as it does with unlimited stack) if there is room for as many nested calls as the
subtree is high; if there is room for fewer, and no node in it is mutably borrowed, it runs out of stack. -/
theorem c64_rc_hash (hs : α → σ → σ) (L : Nat) (s : σ) :
    (t.height ≤ L → rcHash hs L r s m.heap = hashRc hs r s m.heap) ∧
    (L < t.height → (∀ a ∈ t.ids, ¬ m.Guarded a true) → ∃ h', rcHash hs L r s m.heap = .err .fuel h') := by
  have hfull := (c50_hash hm hj hr hs s)
  obtain ⟨G, K, T, I, B⟩ := hm.si
  obtain ⟨a, a1, a2, a3, a4⟩ := Proof.handle I hj hr
  have h0 := rcHash_ok (e := extra G m.fresh T) (s := s) hs (rcDepth r m.heap) (Proof.rd_ok I) (Proof.locks I B) a1 a2 a3 (by omega)
  obtain ⟨h1, h2⟩ := rcHash_within hs L (Proof.rd_ok I) (Proof.locks I B) a1 a2 a3 s (extra G m.fresh T)
  rw [← I.heap] at h0 h1 h2
  refine ⟨fun hl => by rw [h1 hl, hashRc, M.fuelled_apply, h0], fun hl hg => h2 hl fun hn => ?_⟩
  have := hfull.1 hg
  rw [hashRc, M.fuelled_apply, h0, hn] at this
  cases this

/-- **C64** `Display` of a shared node runs if there is room for as many nested calls as the subtree is high; if there is room for fewer, and
no node in it is mutably borrowed, it runs out of stack. -/
theorem c64_rc_display (sh : α → List Char) (L : Nat) :
    (t.height ≤ L → rcFmt sh L r [] m.heap = fmtRc sh r m.heap) ∧
    (L < t.height → (∀ a ∈ t.ids, ¬ m.Guarded a true) → ∃ h', rcFmt sh L r [] m.heap = .err .fuel h') := by
  have hfull := (c50_display hm hj hr sh)
  obtain ⟨G, K, T, I, B⟩ := hm.si
  obtain ⟨a, a1, a2, a3, a4⟩ := Proof.handle I hj hr
  have h0 := rcFmt_ok (e := extra G m.fresh T) (o := []) sh (rcDepth r m.heap) (Proof.rd_ok I) (Proof.locks I B) a1 a2 a3 (by omega)
  obtain ⟨h1, h2⟩ := rcFmt_within sh L (Proof.rd_ok I) (Proof.locks I B) a1 a2 a3 [] (extra G m.fresh T)
  rw [← I.heap] at h0 h1 h2
  refine ⟨fun hl => by rw [h1 hl, fmtRc, M.fuelled_apply, h0], fun hl hg => h2 hl fun hn => ?_⟩
  have := hfull.1 hg
  rw [fmtRc, M.fuelled_apply, h0] at this
  rw [show (if (t.pre.any fun x => m.locked x.1) = true then none else some ([] ++ render sh t.plain)) = none from hn] at this
  cases this

/-- **C64** `Display` of a shared node, whatever the writer does: it is the unlimited call if there is room for as many nested calls as the subtree is high; if there is room for
fewer, and the unlimited call succeeds, it runs out of stack. -/
theorem c64_rc_display_writer (P : Writer α σ) (s : σ) (L : Nat) :
    (t.height ≤ L → rcFmtW P L r s m.heap = displayRcW P r s m.heap) ∧
    (L < t.height → (∃ s', displayRcW P r s m.heap = .ok (s', true) m.heap) → ∃ h', rcFmtW P L r s m.heap = .err .fuel h') := by
  obtain ⟨G, K, T, I, B⟩ := hm.si
  obtain ⟨a, a1, a2, a3, a4⟩ := Proof.handle I hj hr
  have h0 := rcFmtW_ok (e := extra G m.fresh T) (s := s) P (rcDepth r m.heap) (Proof.rd_ok I) (Proof.locks I B) a1 a2 a3 (by omega)
  obtain ⟨h1, h2⟩ := rcFmtW_within P L (Proof.rd_ok I) (Proof.locks I B) a1 a2 a3 s (extra G m.fresh T)
  rw [← I.heap] at h0 h1 h2
  have h3 : displayRcW P r s m.heap = _ := h0
  refine ⟨fun hl => by rw [h1 hl, h3], fun hl ⟨s', he⟩ => h2 hl s' ?_⟩
  rw [h3] at he
  revert he
  cases emit (P.locking m.locked) (displayP (fun a => [.look a]) t) s with
  | none => intro he; cases he
  | some o => intro he; cases he; rfl

/-- **C64** `Debug` of a shared node: it is the unlimited call if there is room for as many nested calls as the subtree is high; if there is room for
fewer, and the unlimited call succeeds, it runs out of stack. -/
theorem c64_rc_debug (P : Writer α σ) (loc : Addr → Addr) (s : σ) (L : Nat) :
    (t.height ≤ L → rcDebugW P loc L r s m.heap = debugRcW P loc r s m.heap) ∧
    (L < t.height → (∃ s', debugRcW P loc r s m.heap = .ok (s', true) m.heap) → ∃ h', rcDebugW P loc L r s m.heap = .err .fuel h') := by
  obtain ⟨G, K, T, I, B⟩ := hm.si
  obtain ⟨a, a1, a2, a3, a4⟩ := Proof.handle I hj hr
  have h0 := rcDebugW_ok (e := extra G m.fresh T) (s := s) P loc (rcDepth r m.heap) (Proof.rd_ok I) (Proof.locks I B) a1 a2 a3 (by omega)
  obtain ⟨h1, h2⟩ := rcDebugW_within P loc L (Proof.rd_ok I) (Proof.locks I B) a1 a2 a3 s (extra G m.fresh T)
  rw [← I.heap] at h0 h1 h2
  have h3 : debugRcW P loc r s m.heap = _ := h0
  refine ⟨fun hl => by rw [h1 hl, h3], fun hl ⟨s', he⟩ => h2 hl s' ?_⟩
  rw [h3] at he
  revert he
  cases emit (P.locking m.locked) (debugP (fun a => [.look a]) loc t) s with
  | none => intro he; cases he
  | some o => intro he; cases he; rfl

end

section
variable {m : RMachine α} (hm : SReachable m) {j k : Var} {t u : RTree (Addr × α)} {r q : RcRef} (hj : m.look j = some t) (hr : m.refs j = some (.rc r))
  (hk : m.look k = some u) (hq : m.refs k = some (.rc q))
include hm hj hr hk hq

/-- **C64** `==` of shared nodes runs (returns or panics as it does with unlimited stack) if there is room for as many nested calls as the left operand is
high; if there is room for fewer, and the unlimited call returns `true`, it runs out of stack. -/
theorem c64_rc_eq (eq : α → α → Bool) (L : Nat) :
    (t.height ≤ L → rcEq eq L r q m.heap = eqRc eq r q m.heap) ∧
    (eqRc eq r q m.heap = .ok true m.heap → L < t.height → ∃ h', rcEq eq L r q m.heap = .err .fuel h') := by
  obtain ⟨G, K, T, I, B⟩ := hm.si
  obtain ⟨a, a1, a2, a3, a4⟩ := Proof.handle I hj hr
  obtain ⟨b, b1, b2, b3, -⟩ := Proof.handle I hk hq
  have h0 := rcEq_ok (e := extra G m.fresh T) eq (rcDepth r m.heap) (Proof.rd_ok I) (Proof.locks I B) a1 a2 b1 b2 a3 b3 (by omega)
  obtain ⟨h1, h2⟩ := rcEq_within (e := extra G m.fresh T) eq L (Proof.rd_ok I) (Proof.locks I B) a1 a2 b1 b2 a3 b3
  rw [← I.heap] at h0 h1 h2
  refine ⟨fun hl => by rw [h1 hl, eqRc, M.fuelled_apply, h0], fun he hl => h2 hl ?_⟩
  rw [eqRc, M.fuelled_apply, h0] at he
  cases hv : eqV m.locked eq t u with
  | none => rw [hv] at he; cases he
  | some o => rw [hv] at he; cases he; rfl

/-- **C64** The same for `cmp`. -/
theorem c64_rc_cmp (c : α → α → Ordering) (L : Nat) :
    (t.height ≤ L → rcCmp c L r q m.heap = cmpRc c r q m.heap) ∧
    (cmpRc c r q m.heap = .ok .eq m.heap → L < t.height → ∃ h', rcCmp c L r q m.heap = .err .fuel h') := by
  obtain ⟨G, K, T, I, B⟩ := hm.si
  obtain ⟨a, a1, a2, a3, a4⟩ := Proof.handle I hj hr
  obtain ⟨b, b1, b2, b3, -⟩ := Proof.handle I hk hq
  have h0 := rcCmp_ok (e := extra G m.fresh T) c (rcDepth r m.heap) (Proof.rd_ok I) (Proof.locks I B) a1 a2 b1 b2 a3 b3 (by omega)
  obtain ⟨h1, h2⟩ := rcCmp_within (e := extra G m.fresh T) c L (Proof.rd_ok I) (Proof.locks I B) a1 a2 b1 b2 a3 b3
  rw [← I.heap] at h0 h1 h2
  refine ⟨fun hl => by rw [h1 hl, cmpRc, M.fuelled_apply, h0], fun he hl => h2 hl ?_⟩
  rw [cmpRc, M.fuelled_apply, h0] at he
  cases hv : cmpV m.locked c t u with
  | none => rw [hv] at he; cases he
  | some o => rw [hv] at he; cases he; rfl

/-- **C64** The same for `partial_cmp`. -/
theorem c64_rc_partial_cmp (c : α → α → Option Ordering) (L : Nat) :
    (t.height ≤ L → rcPcmp c L r q m.heap = pcmpRc c r q m.heap) ∧
    (pcmpRc c r q m.heap = .ok (some .eq) m.heap → L < t.height → ∃ h', rcPcmp c L r q m.heap = .err .fuel h') := by
  obtain ⟨G, K, T, I, B⟩ := hm.si
  obtain ⟨a, a1, a2, a3, a4⟩ := Proof.handle I hj hr
  obtain ⟨b, b1, b2, b3, -⟩ := Proof.handle I hk hq
  have h0 := rcPcmp_ok (e := extra G m.fresh T) c (rcDepth r m.heap) (Proof.rd_ok I) (Proof.locks I B) a1 a2 b1 b2 a3 b3 (by omega)
  obtain ⟨h1, h2⟩ := rcPcmp_within (e := extra G m.fresh T) c L (Proof.rd_ok I) (Proof.locks I B) a1 a2 b1 b2 a3 b3
  rw [← I.heap] at h0 h1 h2
  refine ⟨fun hl => by rw [h1 hl, pcmpRc, M.fuelled_apply, h0], fun he hl => h2 hl ?_⟩
  rw [pcmpRc, M.fuelled_apply, h0] at he
  cases hv : pcmpV m.locked c t u with
  | none => rw [hv] at he; cases he
  | some o => rw [hv] at he; cases he; rfl

/-- **C64** `!=` of shared nodes is one call and the comparisons of the children: with room for `L` more calls it runs if the left operand
has no more than `L + 1` levels; if it has more, and the unlimited call returns `false`, it runs out of stack. -/
theorem c64_rc_ne (eq ne : α → α → Bool) (L : Nat) :
    (t.height ≤ L + 1 → rcNe eq ne L r q m.heap = neRc eq ne r q m.heap) ∧
    (neRc eq ne r q m.heap = .ok false m.heap → L + 1 < t.height → ∃ h', rcNe eq ne L r q m.heap = .err .fuel h') := by
  obtain ⟨G, K, T, I, B⟩ := hm.si
  obtain ⟨a, a1, a2, a3, a4⟩ := Proof.handle I hj hr
  obtain ⟨b, b1, b2, b3, -⟩ := Proof.handle I hk hq
  have h0 := rcNe_ok (e := extra G m.fresh T) eq ne (k := rcDepth r m.heap) (Proof.rd_ok I) (Proof.locks I B) a1 a2 b1 b2 a3 b3 (by omega)
  obtain ⟨h1, h2⟩ := rcNe_within (L := L) (e := extra G m.fresh T) eq ne (Proof.rd_ok I) (Proof.locks I B) a1 a2 b1 b2 a3 b3 _ rfl
  rw [← I.heap] at h0 h1 h2
  have h3 : neRc eq ne r q m.heap = _ := h0
  refine ⟨fun hl => by rw [h1 hl, h3], fun he hl => h2 hl ?_⟩
  rw [h3] at he
  revert he
  generalize (if m.locked t.data.1 || m.locked u.data.1 then none else if ne t.data.2 u.data.2 then some true else
      (eqVL m.locked eq t.kids u.kids).map (! ·) : Option Bool) = o
  intro he
  cases o with
  | none => cases he
  | some o => cases he; rfl

end

/-! ### Non-vacuity -/

/-- Variable 5 of the demo state (the tree `2(3)`, of height 2): with room for one call `Display` and `Debug` run out, with room for two
`Display` does not. -/
example : ∃ r, sdemo.refs 5 = some (.rc r) ∧ (∃ h', rcFmt unary 1 r [] sdemo.heap = .err .fuel h') ∧
    rcFmt unary 2 r [] sdemo.heap = .ok "ii( iii )".toList sdemo.heap ∧
    (∃ h', rcDebugW (boundedW 100) id 1 r [] sdemo.heap = .err .fuel h') := by
  obtain ⟨r, hr⟩ := look_ref sdemo_look5
  refine ⟨r, hr, ?_, ?_, ?_⟩
  · exact (c64_rc_display sdemo_reach sdemo_look5 hr unary 1).2 (by decide +kernel) fun a _ => sdemo_free a true
  · rw [(c64_rc_display sdemo_reach sdemo_look5 hr unary 2).1 (by decide +kernel),
      (c50_display sdemo_reach sdemo_look5 hr unary).1 (fun a _ => sdemo_free a true)]
    rfl
  · refine (c64_rc_debug sdemo_reach sdemo_look5 hr (boundedW 100) id [] 1).2 (by decide +kernel) ?_
    rw [c56_debug_shared sdemo_reach sdemo_look5 hr]
    have hl : ∀ a, sdemo.locked a = false := fun a => by simpa [RMachine.locked] using sdemo_free a true
    have : sdemo.locked = fun _ => false := funext hl
    rw [this]
    exact ⟨_, rfl⟩

/-- Two handles to the same node `2(3)`: with room for one call `==` runs out, with room for two it returns `true`. -/
example : ∃ r q, sdemo.refs 5 = some (.rc r) ∧ sdemo.refs 6 = some (.rc q) ∧
    (∃ h', rcEq (fun d e : Nat => d == e) 1 r q sdemo.heap = .err .fuel h') ∧
    rcEq (fun d e : Nat => d == e) 2 r q sdemo.heap = .ok true sdemo.heap := by
  obtain ⟨r, hr⟩ := look_ref sdemo_look5
  obtain ⟨q, hq⟩ := look_ref sdemo_look6
  refine ⟨r, q, hr, hq, ?_⟩
  obtain ⟨⟨b, h1, h2⟩, -, -⟩ := c50_unlocked sdemo_reach sdemo_look5 hr sdemo_look6 hq (fun a _ => sdemo_free a true) (fun d e : Nat => d == e) compare
    (fun _ _ => none)
  have hb : b = true := h2.mpr (by simp [RTree.plain, RTree.map, RTree.mapL, RTree.Same, SameL])
  subst hb
  exact ⟨(c64_rc_eq sdemo_reach sdemo_look5 hr sdemo_look6 hq _ 1).2 h1 (by decide +kernel),
    by rw [(c64_rc_eq sdemo_reach sdemo_look5 hr sdemo_look6 hq _ 2).1 (by decide +kernel), h1]⟩

end Trees
