import Verif.Proof.Format
import Verif.Props.Ident
import Verif.Props.SharedTraits
import Verif.Props.SharedCases
/-
C56: `Display` and `Debug` with every writer, also one that fails, and every `T::fmt`, also one that fails or panics.
-/
namespace Trees
set_option linter.unusedSimpArgs false
set_option linter.unusedVariables false
variable {α σ : Type}
open RTree

namespace Proof

theorem kidsAt_den {h : Heap α} {K : Addr → List Addr} (hI : Inv h K) {w : Addr → Option (Addr × α)} : ∀ (q : Path) {n : Addr} {ts us : List (RTree (Addr × α))},
    h.Used n → DenL w K (K n) ts → kidsAt ts q = some us → ∃ b, h.Used b ∧ DenL w K (K b) us
  | [], n, ts, us, hn, hd, hk => by simp [kidsAt] at hk; subst hk; exact ⟨n, hn, hd⟩
  | i :: q, n, ts, us, hn, hd, hk => by
    simp only [kidsAt] at hk
    rcases hd.get i with ⟨-, h2⟩ | ⟨c, t, h1, h2, h3⟩
    · rw [h2] at hk; simp at hk
    · rw [h2] at hk
      obtain ⟨x, ks⟩ := t
      simp only [Den_node] at h3
      exact kidsAt_den hI q (hI.used_of_mem (List.mem_of_getElem? h1)) h3.2 hk

theorem lview_node {m : Machine α} {K : Addr → List Addr} (M : MInv m K) {x : Var} {l : Loc} {v : Val (Addr × α)} {T : RTree (Addr × α)}
    (hx : m.lview x = some v) (hl : v.at? l = some T) : m.heap.Used T.data.1 ∧ Den m.heap.lab K T.data.1 T := by
  have key : ∀ {a : Addr} {T : RTree (Addr × α)}, Den m.heap.lab K a T → T.data.1 = a := by
    intro a T hd
    obtain ⟨y, ks⟩ := T
    simp only [Den_node] at hd
    exact (Heap.lab_some.mp hd.1).1
  cases he : m.env x with
  | none => simp [Machine.lview, he] at hx
  | some hd =>
    obtain ⟨v', e, hv⟩ := M.lview_den he
    rw [hx] at e; cases e
    have hu := (M.hnd x hd he).used
    cases l with
    | root =>
      cases hd <;> cases v <;> simp only [HDenV, Val.at?] at hv hl <;> try (simp at hl)
      subst hl
      rw [key hv]; exact ⟨hu, hv⟩
    | child q i =>
      simp only [Val.at?] at hl
      cases hk : kidsAt v.kids q with
      | none => rw [hk] at hl; simp at hl
      | some us =>
        rw [hk, Option.bind_some] at hl
        have hkids : DenL m.heap.lab K (K hd.addr) v.kids := by
          cases hd <;> cases v <;> simp only [HDenV] at hv
          · rename_i r t; obtain ⟨y, ks⟩ := t; simp only [Den_node] at hv; exact hv.2
          · exact hv
          · exact hv
        obtain ⟨b, hb, hus⟩ := kidsAt_den M.inv q hu hkids hk
        rcases hus.get i with ⟨-, h2⟩ | ⟨c, t, h1, h2, h3⟩
        · rw [h2] at hl; simp at hl
        · rw [h2] at hl; cases hl
          rw [key h3]
          exact ⟨M.inv.used_of_mem (List.mem_of_getElem? h1), h3⟩

theorem lview_forest {m : Machine α} {K : Addr → List Addr} (M : MInv m K) {x : Var} {ts : List (RTree (Addr × α))} {f : Addr}
    (he : m.env x = some (.forest f)) (hx : m.lview x = some (.forest ts)) : m.heap.Used f ∧ DenL m.heap.lab K (K f) ts := by
  obtain ⟨v', e, hv⟩ := M.lview_den he
  rw [hx] at e; cases e
  exact ⟨(M.hnd x _ he).used, hv⟩

end Proof

section
variable {m : Machine α} (hr : Reachable m) (P : Writer α σ) (s : σ)
include hr

section
variable {x : Var} {l : Loc} {v : Val (Addr × α)} {T : RTree (Addr × α)} (hx : m.lview x = some v) (ht : v.at? l = some T)
include hx ht

/-- **C56** `Display` of a node or tree hands the writer the documented pieces in order, up to the first error or panic; nothing changes. -/
theorem c56_display : displayNodeW P T.data.1 s m.heap = ofOpt (emit P (displayP (fun _ => []) T) s) m.heap := by
  obtain ⟨K, M⟩ := Proof.reachable_minv hr
  obtain ⟨h1, h2⟩ := Proof.lview_node M hx ht
  exact nodeFmtW_ok M.inv P _ h1 h2 (Nat.lt_succ_self _)

/-- **C56** `Debug` of a node or tree: every item is followed by the address of its own node. -/
theorem c56_debug : debugNodeW P T.data.1 s m.heap = ofOpt (emit P (debugP (fun _ => []) id T) s) m.heap := by
  obtain ⟨K, M⟩ := Proof.reachable_minv hr
  obtain ⟨h1, h2⟩ := Proof.lview_node M hx ht
  exact nodeDebugW_ok M.inv P _ h1 h2 (Nat.lt_succ_self _)

end

section
variable {x : Var} {f : Addr} {ts : List (RTree (Addr × α))} (he : m.env x = some (.forest f)) (hx : m.lview x = some (.forest ts))
include he hx

/-- **C56** `Display` of a forest. -/
theorem c56_display_forest : displayForestW P f s m.heap = ofOpt (emit P (displayForestP ts) s) m.heap := by
  obtain ⟨K, M⟩ := Proof.reachable_minv hr
  obtain ⟨h1, h2⟩ := Proof.lview_forest M he hx
  exact displayForestW_ok M.inv P h1 h2

/-- **C56** `Debug` of a forest. -/
theorem c56_debug_forest : debugForestW P f s m.heap = ofOpt (emit P (debugForestP ts) s) m.heap := by
  obtain ⟨K, M⟩ := Proof.reachable_minv hr
  obtain ⟨h1, h2⟩ := Proof.lview_forest M he hx
  exact debugForestW_ok M.inv P h1 h2

end
end

section
variable {m : RMachine α} (hm : SReachable m) {j : Var} {t : RTree (Addr × α)} {r : RcRef} (hj : m.look j = some t) (hr : m.refs j = some (.rc r))
  (P : Writer α σ) (s : σ)
include hm hj hr

/-- **C56** `Display` of a shared node: the same pieces, and looking at a node whose data is mutably borrowed panics. In every case (success,
error of the writer, panic) all borrows and handles made on the way are undone: the memory is the same as before. -/
theorem c56_display_shared : displayRcW P r s m.heap = ofOpt (emit (P.locking m.locked) (displayP (fun a => [.look a]) t) s) m.heap := by
  obtain ⟨G, K, T, I, B⟩ := hm.si
  obtain ⟨a, a1, a2, a3, a4⟩ := Proof.handle I hj hr
  have := rcFmtW_ok (e := extra G m.fresh T) (s := s) P (rcDepth r m.heap) (Proof.rd_ok I) (Proof.locks I B) a1 a2 a3 (by omega)
  rw [← I.heap] at this
  exact this

/-- **C56** `Debug` of a shared node. The addresses are those of the handles (`loc`), not of the nodes. -/
theorem c56_debug_shared (loc : Addr → Addr) :
    debugRcW P loc r s m.heap = ofOpt (emit (P.locking m.locked) (debugP (fun a => [.look a]) loc t) s) m.heap := by
  obtain ⟨G, K, T, I, B⟩ := hm.si
  obtain ⟨a, a1, a2, a3, a4⟩ := Proof.handle I hj hr
  have := rcDebugW_ok (e := extra G m.fresh T) (s := s) P loc (rcDepth r m.heap) (Proof.rd_ok I) (Proof.locks I B) a1 a2 a3 (by omega)
  rw [← I.heap] at this
  exact this

end

/-! ### What is in the output -/

/-- **C56** If the writer appends what it is given and may fail anywhere, then after printing to it, it holds a beginning of the text of
the pieces, and the whole text if printing returned `Ok`. -/
theorem c56_prefix {sh : α → List Char} {ad : Nat → List Char} {P : Writer α (List Char)} (hP : Appends sh ad P) (ps : List (Piece α))
    (s : List Char) (r : List Char × Bool) (h : emit P ps s = some r) :
    ∃ w, w <+: ps.flatMap (Piece.chars sh ad) ∧ r.1 = s ++ w ∧ (r.2 = true → w = ps.flatMap (Piece.chars sh ad)) :=
  emit_prefix hP ps s r h

/-- **C56** The text of `Display` is the one of C31. -/
theorem c56_text (sh : α → List Char) (ad : Nat → List Char) : (∀ t : RTree (Nat × α), (displayP (fun _ => []) t).flatMap (Piece.chars sh ad) = render sh t.plain) ∧
    ∀ ts : List (RTree (Nat × α)), (displayForestP ts).flatMap (Piece.chars sh ad) = renderForest sh (ts.map RTree.plain) := by
  refine ⟨display_text sh ad, fun ts => ?_⟩
  have e : ∀ ts : List (RTree (Nat × α)), mapL Prod.snd ts = ts.map RTree.plain := by
    intro ts
    induction ts with
    | nil => rfl
    | cons t ts ih => simp [RTree.mapL, ih, RTree.plain]
  cases ts with
  | nil => simp [displayForestP, renderForest, Piece.chars]
  | cons t ts =>
    have := display_textL sh ad (t :: ts)
    simp only [displayForestP, List.cons_append, List.flatMap_cons, List.flatMap_append, this, e]
    simp [renderForest, Piece.chars]

/-- The addresses shown. -/
def Piece.addr? : Piece α → Option Nat
  | .addr a => some a
  | _ => none

mutual
theorem debug_addrs (ad : Nat → Nat) : ∀ t : RTree (Nat × α), (debugP (fun _ => []) ad t).filterMap Piece.addr? = t.pre.map fun x => ad x.1
  | node x [] => by simp [debugP, List.filterMap_cons, Piece.addr?, RTree.pre, RTree.preL]
  | node x (t :: ts) => by
    have := debug_addrsL ad (t :: ts)
    simp only [debugP, List.nil_append, List.filterMap_append, this]
    simp [List.filterMap_cons, Piece.addr?, RTree.pre, RTree.preL]
theorem debug_addrsL (ad : Nat → Nat) : ∀ ts : List (RTree (Nat × α)), (debugPL (fun _ => []) ad ts).filterMap Piece.addr? = (preL ts).map fun x => ad x.1
  | [] => by simp [debugPL, RTree.preL]
  | t :: ts => by
    have := debug_addrs ad t
    simp only [debugPL, List.filterMap_append, this, debug_addrsL ad ts]
    simp [RTree.preL]
end

/-- **C56** `Debug` shows the nodes in pre-order; no address is shown twice, so the text tells the nodes apart. -/
theorem c56_debug_addresses {m : Machine α} (hr : Reachable m) {x : Var} {T : RTree (Addr × α)} (hx : m.lview x = some (.tree T)) :
    (debugP (fun _ => []) id T).filterMap Piece.addr? = T.pre.map Prod.fst ∧ (T.pre.map Prod.fst).Nodup :=
  ⟨debug_addrs id T, (c48_distinct hr hx).1⟩

/-! ### Non-vacuity -/

/-- A writer for at most `n` characters; items in unary, addresses as that many `#`. -/
def boundedW (n : Nat) : Writer Nat (List Char) := fun p s =>
  let w := p.chars unary (fun a => List.replicate a '#')
  if s.length + w.length ≤ n then some (s ++ w, true) else some ((s ++ w).take (max n s.length), false)

example (n : Nat) : Appends unary (fun a => List.replicate a '#') (boundedW n) := by
  intro p s r h
  simp only [boundedW] at h
  split at h
  · cases h; exact ⟨_, List.prefix_refl _, rfl, fun _ => rfl⟩
  · cases h
    refine ⟨(p.chars unary (fun a => List.replicate a '#')).take (max n s.length - s.length), List.take_prefix _ _, ?_, by simp⟩
    simp only [List.take_append]
    rw [List.take_of_length_le (by omega)]

/-- The tree of the demo state, printed, printed to a writer that is full after eight characters, and printed with addresses. -/
example : displayNodeW (boundedW 100) 0 [] demo.heap = .ok ("( i ii )".toList, true) demo.heap :=
  (c56_display demo_reachable (boundedW 100) [] demo_lview0 (l := .root) rfl).trans rfl
example : displayNodeW (boundedW 5) 0 [] demo.heap = .ok ("( i i".toList, false) demo.heap :=
  (c56_display demo_reachable (boundedW 5) [] demo_lview0 (l := .root) rfl).trans rfl
example : debugNodeW (boundedW 100) 0 [] demo.heap = .ok ("@ ( i@# ii@## )".toList, true) demo.heap :=
  (c56_debug demo_reachable (boundedW 100) [] demo_lview0 (l := .root) rfl).trans rfl
/-- An item that panics. -/
example : displayNodeW (fun p s => match p with | .item 2 => none | p => boundedW 100 p s) 0 [] demo.heap = .err .panic demo.heap :=
  (c56_display demo_reachable _ [] demo_lview0 (l := .root) rfl).trans rfl
/-- A shared node in a state without guards. -/
example : ∃ r, sdemo.refs 5 = some (.rc r) ∧ displayRcW (boundedW 4) r [] sdemo.heap = .ok ("ii( ".toList, false) sdemo.heap := by
  obtain ⟨r, hr⟩ := look_ref sdemo_look5
  refine ⟨r, hr, ?_⟩
  rw [c56_display_shared sdemo_reach sdemo_look5 hr]
  have hl : ∀ a, sdemo.locked a = false := fun a => by simpa [RMachine.locked] using sdemo_free a true
  have : sdemo.locked = fun _ => false := funext hl
  rw [this]; rfl

end Trees
