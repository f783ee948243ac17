import Verif.Props.SharedTraits
import Verif.Proof.RcTraitsPanic
/-
C68: comparison, hashing and printing of shared nodes when the data type's own code panics (or its `fmt` reports an error).
-/
namespace Trees
set_option linter.unusedSimpArgs false
set_option linter.unusedVariables false
variable {α σ : Type}
open Classical RTree

section
variable {m : RMachine α} (hm : SReachable m) {j k : Var} {t u : RTree (Addr × α)} {r q : RcRef}
  (hj : m.look j = some t) (hr : m.refs j = some (.rc r)) (hk : m.look k = some u) (hq : m.refs k = some (.rc q))
include hm hj hr

section
include hk hq

/-- **C68** `==` with an implementation of `T::eq` that may panic: it compares as far as needed, and when it panics — because of `T::eq` or
of a mutable borrow — every count, borrow and item is as before. -/
theorem c68_eq (eq : α → α → Option Bool) : eqRcP eq r q m.heap = match eqP m.locked eq t u with
    | some b => .ok b m.heap
    | none => .err .panic m.heap := by
  obtain ⟨G, K, T, I, B⟩ := hm.si
  obtain ⟨a, a1, a2, a3, a4⟩ := Proof.handle I hj hr
  obtain ⟨b, b1, b2, b3, -⟩ := Proof.handle I hk hq
  have := rcEqP_ok (e := extra G m.fresh T) eq (rcDepth r m.heap) (Proof.rd_ok I) (Proof.locks I B) a1 a2 b1 b2 a3 b3 (by omega)
  rw [← I.heap] at this
  refine Eq.trans this ?_
  split <;> (rename_i h; rw [h]; rfl)

/-- **C68** `!=`. -/
theorem c68_ne (eq ne : α → α → Option Bool) : neRcP eq ne r q m.heap = match neP m.locked eq ne t u with
    | some b => .ok b m.heap
    | none => .err .panic m.heap := by
  obtain ⟨G, K, T, I, B⟩ := hm.si
  obtain ⟨a, a1, a2, a3, a4⟩ := Proof.handle I hj hr
  obtain ⟨b, b1, b2, b3, -⟩ := Proof.handle I hk hq
  have := rcNeP_ok (e := extra G m.fresh T) eq ne (k := rcDepth r m.heap) (Proof.rd_ok I) (Proof.locks I B) a1 a2 b1 b2 a3 b3 (by omega)
  rw [← I.heap] at this
  refine Eq.trans this ?_
  split <;> (rename_i h; rw [h]; rfl)

/-- **C68** `cmp`. -/
theorem c68_cmp (c : α → α → Option Ordering) : cmpRcP c r q m.heap = match cmpP m.locked c t u with
    | some b => .ok b m.heap
    | none => .err .panic m.heap := by
  obtain ⟨G, K, T, I, B⟩ := hm.si
  obtain ⟨a, a1, a2, a3, a4⟩ := Proof.handle I hj hr
  obtain ⟨b, b1, b2, b3, -⟩ := Proof.handle I hk hq
  have := rcCmpP_ok (e := extra G m.fresh T) c (rcDepth r m.heap) (Proof.rd_ok I) (Proof.locks I B) a1 a2 b1 b2 a3 b3 (by omega)
  rw [← I.heap] at this
  refine Eq.trans this ?_
  split <;> (rename_i h; rw [h]; rfl)

/-- **C68** `partial_cmp`. -/
theorem c68_pcmp (c : α → α → Option (Option Ordering)) : pcmpRcP c r q m.heap = match pcmpP m.locked c t u with
    | some b => .ok b m.heap
    | none => .err .panic m.heap := by
  obtain ⟨G, K, T, I, B⟩ := hm.si
  obtain ⟨a, a1, a2, a3, a4⟩ := Proof.handle I hj hr
  obtain ⟨b, b1, b2, b3, -⟩ := Proof.handle I hk hq
  have := rcPcmpP_ok (e := extra G m.fresh T) c (rcDepth r m.heap) (Proof.rd_ok I) (Proof.locks I B) a1 a2 b1 b2 a3 b3 (by omega)
  rw [← I.heap] at this
  refine Eq.trans this ?_
  split <;> (rename_i h; rw [h]; rfl)

end

/-- **C68** `hash` with an implementation of `T::hash` that may panic. -/
theorem c68_hash (hs : α → σ → Option σ) (s : σ) : hashRcP hs r s m.heap = match hashP m.locked hs t.pre s with
    | some s' => .ok s' m.heap
    | none => .err .panic m.heap := by
  obtain ⟨G, K, T, I, B⟩ := hm.si
  obtain ⟨a, a1, a2, a3, a4⟩ := Proof.handle I hj hr
  have := rcHashP_ok (e := extra G m.fresh T) (s := s) hs (rcDepth r m.heap) (Proof.rd_ok I) (Proof.locks I B) a1 a2 a3 (by omega)
  rw [← I.heap] at this
  refine Eq.trans this ?_
  split <;> (rename_i h; rw [h]; rfl)

/-- **C68** `Display` with an implementation of `T::fmt` that may panic or report an error: printing stops there,
no handle and no borrow is left. -/
theorem c68_display (sh : α → Option (List Char × Bool)) : fmtRcP sh r m.heap = match fmtP m.locked sh t [] with
    | some w => .ok w m.heap
    | none => .err .panic m.heap := by
  obtain ⟨G, K, T, I, B⟩ := hm.si
  obtain ⟨a, a1, a2, a3, a4⟩ := Proof.handle I hj hr
  have := rcFmtP_ok (e := extra G m.fresh T) (o := []) sh (rcDepth r m.heap) (Proof.rd_ok I) (Proof.locks I B) a1 a2 a3 (by omega)
  rw [← I.heap] at this
  refine Eq.trans this ?_
  split <;> (rename_i h; rw [h]; rfl)

end

/-! ### Implementations that return -/

section
variable {ι : Type} {lk : ι → Bool}

mutual
theorem eqP_total (eq : α → α → Bool) : ∀ t u : RTree (ι × α), eqP lk (fun d e => some (eq d e)) t u = eqV lk eq t u
  | node x ts, node y us => by
    simp only [eqP, eqV, eqPL_total eq ts us]
    split
    · rfl
    · cases eq x.2 y.2 <;> rfl
theorem eqPL_total (eq : α → α → Bool) : ∀ ts us : List (RTree (ι × α)), eqPL lk (fun d e => some (eq d e)) ts us = eqVL lk eq ts us
  | [], [] => by simp [eqPL, eqVL]
  | [], _ :: _ => by simp [eqPL, eqVL]
  | _ :: _, [] => by simp [eqPL, eqVL]
  | t :: ts, u :: us => by
    simp only [eqPL, eqVL, eqP_total eq t u, eqPL_total eq ts us]
    rcases eqV lk eq t u with _ | _ | _ <;> rfl
end

mutual
theorem cmpP_total (c : α → α → Ordering) : ∀ t u : RTree (ι × α), cmpP lk (fun d e => some (c d e)) t u = cmpV lk c t u
  | node x ts, node y us => by
    simp only [cmpP, cmpV, cmpPL_total c ts us]
    split
    · rfl
    · cases c x.2 y.2 <;> rfl
theorem cmpPL_total (c : α → α → Ordering) : ∀ ts us : List (RTree (ι × α)), cmpPL lk (fun d e => some (c d e)) ts us = cmpVL lk c ts us
  | [], [] => by simp [cmpPL, cmpVL]
  | [], _ :: _ => by simp [cmpPL, cmpVL]
  | _ :: _, [] => by simp [cmpPL, cmpVL]
  | t :: ts, u :: us => by
    simp only [cmpPL, cmpVL, cmpP_total c t u, cmpPL_total c ts us]
    rcases cmpV lk c t u with _ | _ | _ | _ <;> rfl
end

mutual
theorem pcmpP_total (c : α → α → Option Ordering) : ∀ t u : RTree (ι × α), pcmpP lk (fun d e => some (c d e)) t u = pcmpV lk c t u
  | node x ts, node y us => by
    simp only [pcmpP, pcmpV, pcmpPL_total c ts us]
    split
    · rfl
    · rcases c x.2 y.2 with _ | _ | _ | _ <;> rfl
theorem pcmpPL_total (c : α → α → Option Ordering) : ∀ ts us : List (RTree (ι × α)), pcmpPL lk (fun d e => some (c d e)) ts us = pcmpVL lk c ts us
  | [], [] => by simp [pcmpPL, pcmpVL]
  | [], _ :: _ => by simp [pcmpPL, pcmpVL]
  | _ :: _, [] => by simp [pcmpPL, pcmpVL]
  | t :: ts, u :: us => by
    simp only [pcmpPL, pcmpVL, pcmpP_total c t u, pcmpPL_total c ts us]
    rcases pcmpV lk c t u with _ | _ | _ | _ | _ <;> rfl
end

/-- Hashing that panics nowhere feeds the items in pre-order. -/
theorem hashP_total (hs : α → σ → σ) : ∀ (l : List (ι × α)) (s : σ), (∀ x ∈ l, lk x.1 = false) →
    hashP lk (fun d s => some (hs d s)) l s = some ((l.map Prod.snd).foldl (fun s d => hs d s) s)
  | [], s, _ => rfl
  | x :: l, s, h => by
    simp only [hashP, h x (by simp), Bool.false_eq_true, if_false, Option.bind_some, List.map_cons, List.foldl_cons]
    exact hashP_total hs l _ fun y hy => h y (by simp [hy])

/-- An implementation of `fmt` that writes the same as `sh'`, or stops with an error before. -/
def Upto (sh : α → Option (List Char × Bool)) (sh' : α → List Char) : Prop := ∀ d w b, sh d = some (w, b) → w <+: sh' d ∧ (b = true → w = sh' d)

mutual
/-- What was written before an error is the beginning of the full text; without an error it is the full text. -/
theorem fmtP_upto {sh : α → Option (List Char × Bool)} {sh' : α → List Char} (hs : Upto sh sh') : ∀ (t : RTree (ι × α)) (o v : List Char) (b : Bool),
    fmtP lk sh t o = some (v, b) → v <+: o ++ render sh' t.plain ∧ (b = true → v = o ++ render sh' t.plain)
  | node x ts, o, v, b, h => by
    simp only [fmtP] at h
    split at h
    · cases h
    · cases ts with
      | nil =>
        have e : (node x ([] : List (RTree (ι × α)))).plain = node x.2 [] := by simp [RTree.plain, RTree.map, RTree.mapL]
        rw [e]
        simp only [render]
        rcases hx : sh x.2 with _ | ⟨w, _ | _⟩ <;> rw [hx] at h
        · cases h
        · cases h; exact ⟨(List.prefix_append_right_inj _).mpr (hs _ _ _ hx).1, fun h => by cases h⟩
        · simp only [List.isEmpty_nil, if_true, Option.some.injEq, Prod.mk.injEq] at h
          obtain ⟨rfl, rfl⟩ := h
          have := (hs _ _ _ hx).2 rfl
          rw [this]
          exact ⟨List.prefix_rfl, fun _ => rfl⟩
      | cons t ts =>
        have e : (node x (t :: ts)).plain = node x.2 (t.plain :: mapL Prod.snd ts) := by simp [RTree.plain, RTree.map, RTree.mapL]
        rw [e]
        have er : render sh' (node x.2 (t.plain :: mapL Prod.snd ts)) = sh' x.2 ++ ['(', ' '] ++ renderL sh' (mapL Prod.snd (t :: ts)) ++ [')'] := by
          rw [renderL_cons']; simp [RTree.plain, RTree.mapL]
        rw [er]
        rcases hx : sh x.2 with _ | ⟨w, _ | _⟩ <;> rw [hx] at h
        · cases h
        · cases h
          refine ⟨?_, fun h => by cases h⟩
          rw [List.append_assoc, List.append_assoc, List.prefix_append_right_inj]
          exact (hs _ _ _ hx).1.trans (List.prefix_append _ _)
        · have := (hs _ _ _ hx).2 rfl
          subst this
          simp only [List.isEmpty_cons, Bool.false_eq_true, if_false] at h
          rcases hE : fmtPL lk sh (t :: ts) (o ++ sh' x.2 ++ ['(', ' ']) with _ | ⟨w, _ | _⟩ <;> rw [hE] at h
          · cases h
          · cases h
            have := (fmtPL_upto hs (t :: ts) _ _ _ hE).1
            refine ⟨?_, fun h => by cases h⟩
            refine this.trans ?_
            simp only [← List.append_assoc]
            exact List.prefix_append _ _
          · cases h
            have := (fmtPL_upto hs (t :: ts) _ _ _ hE).2 rfl
            have e2 : w ++ [')'] = o ++ (sh' x.2 ++ ['(', ' '] ++ renderL sh' (mapL Prod.snd (t :: ts)) ++ [')']) := by
              rw [this]; simp only [List.append_assoc]
            rw [e2]
            exact ⟨List.prefix_rfl, fun _ => rfl⟩
theorem fmtPL_upto {sh : α → Option (List Char × Bool)} {sh' : α → List Char} (hs : Upto sh sh') : ∀ (ts : List (RTree (ι × α))) (o v : List Char) (b : Bool),
    fmtPL lk sh ts o = some (v, b) → v <+: o ++ renderL sh' (mapL Prod.snd ts) ∧ (b = true → v = o ++ renderL sh' (mapL Prod.snd ts))
  | [], o, v, b, h => by
    simp only [fmtPL, Option.some.injEq, Prod.mk.injEq] at h
    obtain ⟨rfl, rfl⟩ := h
    simp [renderL, RTree.mapL]
  | t :: ts, o, v, b, h => by
    simp only [fmtPL] at h
    have er : renderL sh' (mapL Prod.snd (t :: ts)) = render sh' t.plain ++ [' '] ++ renderL sh' (mapL Prod.snd ts) := by simp [RTree.mapL, renderL, RTree.plain]
    rw [er]
    rcases hE : fmtP lk sh t o with _ | ⟨w, _ | _⟩ <;> rw [hE] at h
    · cases h
    · cases h
      refine ⟨(fmtP_upto hs t _ _ _ hE).1.trans ?_, fun h => by cases h⟩
      simp only [← List.append_assoc]
      exact (List.prefix_append _ _).trans (List.prefix_append _ _)
    · have h1 := (fmtP_upto hs t _ _ _ hE).2 rfl
      have h2 := fmtPL_upto hs ts _ _ _ h
      subst h1
      simpa only [List.append_assoc] using h2
end

mutual
/-- Printing that meets no panic and no error gives the documented text. -/
theorem fmtP_total (sh : α → List Char) : ∀ (t : RTree (ι × α)) (o : List Char), (∀ x ∈ t.pre, lk x.1 = false) →
    fmtP lk (fun d => some (sh d, true)) t o = some (o ++ render sh t.plain, true)
  | node x ts, o, h => by
    have h1 : ∀ y ∈ preL ts, lk y.1 = false := fun y hy => h y (by simp [pre, hy])
    cases ts with
    | nil => simp [fmtP, h x (by simp [pre]), RTree.plain, RTree.map, RTree.mapL, render]
    | cons t ts =>
      simp only [fmtP, h x (by simp [pre]), Bool.false_eq_true, if_false, List.isEmpty_cons, fmtPL_total sh (t :: ts) _ h1]
      rw [show (node x (t :: ts)).plain = node x.2 (t.plain :: mapL Prod.snd ts) by simp [RTree.plain, RTree.map, RTree.mapL]]
      rw [renderL_cons']
      simp [RTree.plain, RTree.mapL]
theorem fmtPL_total (sh : α → List Char) : ∀ (ts : List (RTree (ι × α))) (o : List Char), (∀ x ∈ preL ts, lk x.1 = false) →
    fmtPL lk (fun d => some (sh d, true)) ts o = some (o ++ renderL sh (mapL Prod.snd ts), true)
  | [], o, _ => by simp [fmtPL, renderL, RTree.mapL]
  | t :: ts, o, h => by
    have h1 : ∀ y ∈ t.pre, lk y.1 = false := fun y hy => h y (by simp [preL, hy])
    have h2 : ∀ y ∈ preL ts, lk y.1 = false := fun y hy => h y (by simp [preL, hy])
    simp only [fmtPL, fmtP_total sh t o h1, fmtPL_total sh ts _ h2]
    simp [renderL, RTree.mapL, RTree.plain]
end

end

/-- **C68** If `T::fmt` may stop early with an error, so may `Display`: what it then has written is the beginning of the full text; it
reports success only if it wrote the full text. Nothing is changed either way. -/
theorem c68_display_prefix {m : RMachine α} (hm : SReachable m) {j : Var} {t : RTree (Addr × α)} {r : RcRef} (hj : m.look j = some t)
    (hr : m.refs j = some (.rc r)) {sh : α → Option (List Char × Bool)} {sh' : α → List Char} (hs : Upto sh sh') :
    fmtRcP sh r m.heap = .err .panic m.heap ∨ ∃ v b, fmtRcP sh r m.heap = .ok (v, b) m.heap ∧ v <+: render sh' t.plain ∧ (b = true → v = render sh' t.plain) := by
  rw [c68_display hm hj hr sh]
  rcases h : fmtP m.locked sh t [] with _ | ⟨v, b⟩
  · exact .inl rfl
  · exact .inr ⟨v, b, rfl, by simpa using fmtP_upto hs t [] v b h⟩

/-! ### Non-vacuity -/

/-- An implementation of `==` that panics for the item `3` — the last node of the trees compared. -/
example : ∃ r q, sdemo.refs 5 = some (.rc r) ∧ sdemo.refs 6 = some (.rc q) ∧
    eqRcP (fun d e : Nat => if d = 3 then none else some (d == e)) r q sdemo.heap = .err .panic sdemo.heap := by
  obtain ⟨r, hr⟩ := look_ref sdemo_look5
  obtain ⟨q, hq⟩ := look_ref sdemo_look6
  refine ⟨r, q, hr, hq, ?_⟩
  rw [c68_eq sdemo_reach sdemo_look5 hr sdemo_look6 hq]
  simp only [eqP, eqPL]
  split <;> rename_i h
  · exfalso; revert h; simp
  · rfl

/-- An implementation of `fmt` that fails at the item `3`: the text so far is there, nothing else has changed. -/
example : ∃ r, sdemo.refs 5 = some (.rc r) ∧ ((∀ a, ¬ sdemo.Guarded a true) →
    fmtRcP (fun d : Nat => some (if d = 3 then (['!'], false) else (unary d, true))) r sdemo.heap = .ok ("ii( !".toList, false) sdemo.heap) := by
  obtain ⟨r, hr⟩ := look_ref sdemo_look5
  refine ⟨r, hr, fun hg => ?_⟩
  rw [c68_display sdemo_reach sdemo_look5 hr]
  have hl : ∀ a, sdemo.locked a = false := fun a => by simp [RMachine.locked, hg a]
  simp only [fmtP, fmtPL, hl]
  rfl

end Trees
