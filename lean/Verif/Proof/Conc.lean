import Verif.Proof.FineStep
import Verif.Proof.Alloc
import Mathlib.Logic.Function.Iterate
/-
Threads whose parts of memory are disjoint do not disturb each other.
-/
namespace Trees
namespace Fine
set_option linter.unusedSimpArgs false
set_option linter.unusedVariables false
variable {α β γ : Type} {A : Alloc}

/-- `H` is a part of `G`. -/
structure Sub (H G : Heap α) : Prop where
  live : ∀ a, H.live a = true → G.live a = true
  prev : ∀ a, H.live a = true → G.prev a = H.prev a
  next : ∀ a, H.live a = true → G.next a = H.next a
  head : ∀ a, H.live a = true → G.head a = H.head a
  tail : ∀ a, H.live a = true → G.tail a = H.tail a
  up : ∀ a, H.live a = true → G.up a = H.up a
  size : ∀ a, H.live a = true → G.size a = H.size a
  data : ∀ a, H.live a = true → G.data a = H.data a
  count : ∀ a, H.live a = true → G.count a = H.count a
  borrow : ∀ a, H.live a = true → G.borrow a = H.borrow a
  vec : ∀ v nv, H.vec v = some nv → G.vec v = some nv

/-- Parts without common memory. -/
structure Disj (H K : Heap α) : Prop where
  here : ∀ a, H.Here a → K.Here a → False
  vec : ∀ v nv, H.vec v = some nv → K.vec v = none

/-- The counters and the log agree. -/
structure Same3 (H G : Heap α) : Prop where
  nextAddr : G.nextAddr = H.nextAddr
  nextVec : G.nextVec = H.nextVec
  log : G.log = H.log

/-- The place of an allocation is free for `K`. -/
def Out (A : Alloc) (G K : Heap α) : Acc α → Prop
  | .make _ => ¬ K.Here (A.addr G.nextAddr)
  | .newVec cap => K.vec (A.vec G.nextVec) = none ∧ ∀ k, k < cap + 1 → ¬ K.Here (A.addr G.nextAddr + k)
  | _ => True

/-- The allocator keeps its contract in `G`. -/
def Okay (A : Alloc) (G : Heap α) : Acc α → Prop
  | .make _ => A.okNode G = true
  | .newVec cap => A.okBlock G (cap + 1) = true
  | _ => True

/-- What an access in a part does to the whole. -/
structure Eff (A : Alloc) (a : Acc α) (H G H' G' : Heap α) : Prop where
  sub : Sub H' G'
  same : Same3 H' G'
  live : ∀ b, G'.live b = true → H'.live b = true ∨ (G.live b = true ∧ H.live b = false)
  vec : ∀ v nv, G'.vec v = some nv → H'.vec v = some nv ∨ (G.vec v = some nv ∧ H.vec v = none)
  other : ∀ K, Sub K G → Disj H K → Out A G K a → Sub K G' ∧ Disj H' K

theorem Disj.ne {H K : Heap α} (d : Disj H K) {a b : Addr} (h1 : H.live a = true) (h2 : K.live b = true) : b ≠ a := by
  rintro rfl; exact d.here _ (.inl h1) (.inl h2)

theorem Sub.of_mem {H G H' G' : Heap α} (hs : Sub H G) (h1 : ∀ a, H'.live a = true → H.live a = true) (h2 : ∀ a, H'.live a = true → G'.live a = true)
    (e1 : ∀ a, H'.live a = true → H'.prev a = H.prev a ∧ H'.next a = H.next a ∧ H'.head a = H.head a ∧ H'.tail a = H.tail a ∧ H'.up a = H.up a ∧
      H'.size a = H.size a ∧ H'.data a = H.data a ∧ H'.count a = H.count a ∧ H'.borrow a = H.borrow a)
    (e2 : ∀ a, H'.live a = true → G'.prev a = G.prev a ∧ G'.next a = G.next a ∧ G'.head a = G.head a ∧ G'.tail a = G.tail a ∧ G'.up a = G.up a ∧
      G'.size a = G.size a ∧ G'.data a = G.data a ∧ G'.count a = G.count a ∧ G'.borrow a = G.borrow a)
    (hv : ∀ v nv, H'.vec v = some nv → G'.vec v = some nv) : Sub H' G' := by
  refine ⟨h2, ?_, ?_, ?_, ?_, ?_, ?_, ?_, ?_, ?_, hv⟩ <;> intro a ha <;> have E1 := e1 a ha <;> have E2 := e2 a ha <;> have l := h1 a ha
  · rw [E1.1, E2.1, hs.prev a l]
  · rw [E1.2.1, E2.2.1, hs.next a l]
  · rw [E1.2.2.1, E2.2.2.1, hs.head a l]
  · rw [E1.2.2.2.1, E2.2.2.2.1, hs.tail a l]
  · rw [E1.2.2.2.2.1, E2.2.2.2.2.1, hs.up a l]
  · rw [E1.2.2.2.2.2.1, E2.2.2.2.2.2.1, hs.size a l]
  · rw [E1.2.2.2.2.2.2.1, E2.2.2.2.2.2.2.1, hs.data a l]
  · rw [E1.2.2.2.2.2.2.2.1, E2.2.2.2.2.2.2.2.1, hs.count a l]
  · rw [E1.2.2.2.2.2.2.2.2, E2.2.2.2.2.2.2.2.2, hs.borrow a l]

/-- The same content at a node. -/
def Eq9 (H H' : Heap α) (a : Addr) : Prop :=
  H'.prev a = H.prev a ∧ H'.next a = H.next a ∧ H'.head a = H.head a ∧ H'.tail a = H.tail a ∧ H'.up a = H.up a ∧
      H'.size a = H.size a ∧ H'.data a = H.data a ∧ H'.count a = H.count a ∧ H'.borrow a = H.borrow a

theorem Sub.eq9 {H G : Heap α} (hs : Sub H G) {a : Addr} (l : H.live a = true) : Eq9 H G a :=
  ⟨hs.prev a l, hs.next a l, hs.head a l, hs.tail a l, hs.up a l, hs.size a l, hs.data a l, hs.count a l, hs.borrow a l⟩

theorem Sub.mk9 {H G : Heap α} (h1 : ∀ a, H.live a = true → G.live a = true) (h2 : ∀ a, H.live a = true → Eq9 H G a)
    (h3 : ∀ v nv, H.vec v = some nv → G.vec v = some nv) : Sub H G :=
  ⟨h1, fun a l => (h2 a l).1, fun a l => (h2 a l).2.1, fun a l => (h2 a l).2.2.1, fun a l => (h2 a l).2.2.2.1, fun a l => (h2 a l).2.2.2.2.1,
   fun a l => (h2 a l).2.2.2.2.2.1, fun a l => (h2 a l).2.2.2.2.2.2.1, fun a l => (h2 a l).2.2.2.2.2.2.2.1, fun a l => (h2 a l).2.2.2.2.2.2.2.2, h3⟩

theorem Eq9.refl (H : Heap α) (a : Addr) : Eq9 H H a := ⟨rfl, rfl, rfl, rfl, rfl, rfl, rfl, rfl, rfl⟩
theorem Eq9.symm {H G : Heap α} {a : Addr} (h : Eq9 H G a) : Eq9 G H a := by
  obtain ⟨h1, h2, h3, h4, h5, h6, h7, h8, h9⟩ := h
  exact ⟨h1.symm, h2.symm, h3.symm, h4.symm, h5.symm, h6.symm, h7.symm, h8.symm, h9.symm⟩
theorem Eq9.trans {H G F : Heap α} {a : Addr} (h : Eq9 H G a) (g : Eq9 G F a) : Eq9 H F a := by
  obtain ⟨h1, h2, h3, h4, h5, h6, h7, h8, h9⟩ := h
  obtain ⟨g1, g2, g3, g4, g5, g6, g7, g8, g9⟩ := g
  exact ⟨g1.trans h1, g2.trans h2, g3.trans h3, g4.trans h4, g5.trans h5, g6.trans h6, g7.trans h7, g8.trans h8, g9.trans h9⟩

/-- An access that changes the content of node `b` only. -/
theorem eff_node {a : Acc α} {H G H' G' : Heap α} {b : Addr} (hs : Sub H G) (lb : H.live b = true)
    (hl : H'.live = H.live) (gl : G'.live = G.live) (hv : H'.vec = H.vec) (gv : G'.vec = G.vec) (hc : Same3 H' G')
    (h1 : ∀ c, c ≠ b → Eq9 H H' c) (h2 : ∀ c, c ≠ b → Eq9 G G' c) (h3 : Eq9 H' G' b) : Eff A a H G H' G' := by
  refine ⟨Sub.mk9 ?_ ?_ ?_, hc, ?_, ?_, ?_⟩
  · rw [hl, gl]; exact hs.live
  · intro c hc'
    by_cases cb : c = b
    · subst cb; exact h3
    · rw [hl] at hc'; exact ((h1 c cb).symm.trans (hs.eq9 hc')).trans (h2 c cb)
  · rw [hv, gv]; exact hs.vec
  · intro c; rw [gl, hl]; intro h
    cases l : H.live c with
    | true => exact .inl rfl
    | false => exact .inr ⟨h, rfl⟩
  · intro v nv; rw [gv, hv]; intro h
    cases l : H.vec v with
    | some nw => rw [hs.vec v nw l] at h; exact .inl h
    | none => exact .inr ⟨h, rfl⟩
  · intro K sk d _
    refine ⟨Sub.mk9 ?_ ?_ ?_, ?_, ?_⟩
    · rw [gl]; exact sk.live
    · intro c hc'; exact (sk.eq9 hc').trans (h2 c (d.ne lb hc'))
    · rw [gv]; exact sk.vec
    · intro c hh; refine d.here c ?_; unfold Heap.Here at *; rwa [hl, hv] at hh
    · rw [hv]; exact d.vec

theorem eff_same {a : Acc α} {H G H' G' : Heap α} (hs : Sub H G)
    (hl : H'.live = H.live) (gl : G'.live = G.live) (hv : H'.vec = H.vec) (gv : G'.vec = G.vec) (hc : Same3 H' G')
    (h1 : ∀ c, Eq9 H H' c) (h2 : ∀ c, Eq9 G G' c) : Eff A a H G H' G' := by
  refine ⟨Sub.mk9 ?_ ?_ ?_, hc, ?_, ?_, ?_⟩
  · rw [hl, gl]; exact hs.live
  · intro c hc'
    rw [hl] at hc'; exact ((h1 c).symm.trans (hs.eq9 hc')).trans (h2 c)
  · rw [hv, gv]; exact hs.vec
  · intro c; rw [gl, hl]; intro h
    cases l : H.live c with
    | true => exact .inl rfl
    | false => exact .inr ⟨h, rfl⟩
  · intro v nv; rw [gv, hv]; intro h
    cases l : H.vec v with
    | some nw => rw [hs.vec v nw l] at h; exact .inl h
    | none => exact .inr ⟨h, rfl⟩
  · intro K sk d _
    refine ⟨Sub.mk9 ?_ ?_ ?_, ?_, ?_⟩
    · rw [gl]; exact sk.live
    · intro c hc'; exact (sk.eq9 hc').trans (h2 c)
    · rw [gv]; exact sk.vec
    · intro c hh; refine d.here c ?_; unfold Heap.Here at *; rwa [hl, hv] at hh
    · rw [hv]; exact d.vec

theorem eff_refl {a : Acc α} {H G : Heap α} (hs : Sub H G) (hc : Same3 H G) : Eff A a H G H G :=
  eff_same hs rfl rfl rfl rfl hc (Eq9.refl _) (Eq9.refl _)

theorem rd_ok {f : Heap α → Addr → γ} {b : Addr} {H H' : Heap α} {x : γ} (e : rd f b H = .ok x H') :
    H.live b = true ∧ x = f H b ∧ H' = H := by
  unfold rd at e
  split at e
  · rename_i l; cases e; exact ⟨l, rfl, rfl⟩
  · cases e

theorem wr_ok {f : Heap α → Heap α} {b : Addr} {H H' : Heap α} {x : Unit} (e : wr f b H = .ok x H') :
    H.live b = true ∧ H' = f H := by
  unfold wr at e
  split at e
  · rename_i l; cases e; exact ⟨l, rfl⟩
  · cases e

theorem rd_part {a : Acc α} {H G H' : Heap α} {f : Heap α → Addr → γ} {b : Addr} {x : γ} (hs : Sub H G) (hc : Same3 H G)
    (e : rd f b H = .ok x H') (hf : H.live b = true → f G b = f H b) : ∃ G', rd f b G = .ok x G' ∧ Eff A a H G H' G' := by
  obtain ⟨l, rfl, rfl⟩ := rd_ok e
  refine ⟨G, ?_, eff_refl hs hc⟩
  simp [rd, hs.live b l, hf l]

theorem wr_part {a : Acc α} {H G H' : Heap α} {f : Heap α → Heap α} {b : Addr} {x : Unit} (hs : Sub H G) (hc : Same3 H G)
    (e : wr f b H = .ok x H') (hl : ∀ h, (f h).live = h.live) (hv : ∀ h, (f h).vec = h.vec)
    (hn : ∀ h, (f h).nextAddr = h.nextAddr ∧ (f h).nextVec = h.nextVec ∧ (f h).log = h.log)
    (h1 : ∀ h c, c ≠ b → Eq9 h (f h) c) (h3 : Eq9 H G b → Eq9 (f H) (f G) b) :
    ∃ G', wr f b G = .ok x G' ∧ Eff A a H G H' G' := by
  obtain ⟨l, rfl⟩ := wr_ok e
  refine ⟨f G, ?_, eff_node hs l (hl _) (hl _) (hv _) (hv _) ?_ (h1 _) (h1 _) (h3 (hs.eq9 l))⟩
  · simp [wr, hs.live b l]
  · exact ⟨by rw [(hn _).1, (hn _).1, hc.nextAddr], by rw [(hn _).2.1, (hn _).2.1, hc.nextVec], by rw [(hn _).2.2, (hn _).2.2, hc.log]⟩

macro "wrp" hs:term:max hc:term:max e:term:max f:term:max b:term:max : tactic => `(tactic| (
  refine wr_part (f := $f) (b := $b) $hs $hc $e (fun _ => rfl) (fun _ => rfl) (fun _ => ⟨rfl, rfl, rfl⟩) ?_ ?_
  · intro h c cb; refine ⟨?_, ?_, ?_, ?_, ?_, ?_, ?_, ?_, ?_⟩ <;> first | rfl | exact upd_of_ne _ _ cb
  · rintro ⟨h1, h2, h3, h4, h5, h6, h7, h8, h9⟩
    refine ⟨?_, ?_, ?_, ?_, ?_, ?_, ?_, ?_, ?_⟩ <;> first | assumption | (simp only [upd_self])))

theorem acc_part {a : Acc α} {H G H' : Heap α} {x : a.Ret} (hs : Sub H G) (hc : Same3 H G) (e : a.run A H = .ok x H')
    (ok : Okay A G a) : ∃ G', a.run A G = .ok x G' ∧ Eff A a H G H' G' := by
  cases a with
  | ptr f b =>
    cases f with
    | prev => exact rd_part hs hc e (hs.prev b)
    | next => exact rd_part hs hc e (hs.next b)
    | head => exact rd_part hs hc e (hs.head b)
    | tail => exact rd_part hs hc e (hs.tail b)
    | up => exact rd_part hs hc e (hs.up b)
  | size b => exact rd_part hs hc e (hs.size b)
  | data b => exact rd_part hs hc e (hs.data b)
  | setPtr f b v =>
    cases f with
    | prev => wrp hs hc e (fun h => { h with prev := upd h.prev b v }) b
    | next => wrp hs hc e (fun h => { h with next := upd h.next b v }) b
    | head => wrp hs hc e (fun h => { h with head := upd h.head b v }) b
    | tail => wrp hs hc e (fun h => { h with tail := upd h.tail b v }) b
    | up => wrp hs hc e (fun h => { h with up := upd h.up b v }) b
  | setSize b v => wrp hs hc e (fun h => { h with size := upd h.size b v }) b
  | setData b v => wrp hs hc e (fun h => { h with data := upd h.data b v }) b
  | bound =>
    simp only [Acc.run] at e
    cases e
    exact ⟨G, by simp only [Acc.run, hc.nextAddr], eff_refl hs hc⟩
  | logDrop d =>
    simp only [Acc.run, Trees.logDrop] at e
    cases e
    refine ⟨_, rfl, eff_same hs rfl rfl rfl rfl ⟨hc.nextAddr, hc.nextVec, ?_⟩ (Eq9.refl _) (Eq9.refl _)⟩
    dsimp only; rw [hc.log]
  | vecNode v i =>
    simp only [Acc.run, Trees.vecNode] at e ⊢
    cases ev : H.vec v with
    | none => rw [ev] at e; cases e
    | some nv =>
      rw [ev] at e
      rw [hs.vec v nv ev]
      dsimp only at e ⊢
      split at e
      · rename_i hi; cases e; rw [if_pos hi]; exact ⟨G, rfl, eff_refl hs hc⟩
      · cases e
  | getRef v =>
    simp only [Acc.run] at e ⊢
    cases ev : H.vec v with
    | none => rw [ev] at e; cases e
    | some nv =>
      rw [ev] at e
      rw [hs.vec v nv ev]
      cases e
      exact ⟨G, rfl, eff_refl hs hc⟩
  | setRef v n =>
    simp only [Acc.run] at e ⊢
    cases ev : H.vec v with
    | none => rw [ev] at e; cases e
    | some nv =>
      rw [ev] at e
      rw [hs.vec v nv ev]
      cases e
      refine ⟨_, rfl, ⟨Sub.mk9 hs.live (fun c l => hs.eq9 l) ?_, ⟨hc.nextAddr, hc.nextVec, hc.log⟩, ?_, ?_, ?_⟩⟩
      · intro w nw; simp only [upd_apply]; split
        · exact fun h => h
        · exact hs.vec w nw
      · intro c h
        cases l : H.live c with
        | true => exact .inl rfl
        | false => exact .inr ⟨h, rfl⟩
      · intro w nw; simp only [upd_apply]; split
        · exact fun h => .inl h
        · intro h
          cases l : H.vec w with
          | some nw' => rw [hs.vec w nw' l] at h; exact .inl h
          | none => exact .inr ⟨h, rfl⟩
      · intro K sk d _
        refine ⟨Sub.mk9 sk.live (fun c l => sk.eq9 l) ?_, ?_, ?_⟩
        · intro w nw hw
          simp only [upd_apply]; split
          · rename_i e; subst e; rw [d.vec w nv ev] at hw; cases hw
          · exact sk.vec w nw hw
        · intro c hh; refine d.here c ?_
          rcases hh with hh | ⟨w, nw, hw, h1, h2⟩
          · exact .inl hh
          · simp only [upd_apply] at hw
            split at hw
            · cases hw; exact .inr ⟨v, nv, ev, h1, h2⟩
            · exact .inr ⟨w, nw, hw, h1, h2⟩
        · intro w nw hw
          simp only [upd_apply] at hw
          split at hw
          · rename_i e; subst e; exact d.vec w nv ev
          · exact d.vec w nw hw
  | freeVec v =>
    simp only [Acc.run] at e ⊢
    cases ev : H.vec v with
    | none => rw [ev] at e; cases e
    | some nv =>
      rw [ev] at e
      rw [hs.vec v nv ev]
      cases e
      have kl : ∀ (l : Addr → Bool) c, killRange l nv c = true ↔ l c = true ∧ ¬ (nv.base ≤ c ∧ c < nv.base + nv.cap) := by
        intro l c; simp only [killRange]; split <;> simp_all
      refine ⟨_, rfl, ⟨Sub.mk9 ?_ ?_ ?_, ⟨hc.nextAddr, hc.nextVec, hc.log⟩, ?_, ?_, ?_⟩⟩
      · intro c; dsimp only; rw [kl, kl]; exact fun h => ⟨hs.live c h.1, h.2⟩
      · intro c; dsimp only; rw [kl]; exact fun h => hs.eq9 h.1
      · intro w nw; simp only [upd_apply]; split
        · exact fun h => h
        · exact hs.vec w nw
      · intro c; dsimp only; rw [kl, kl]; intro h
        cases l : H.live c with
        | true => exact .inl ⟨rfl, h.2⟩
        | false => exact .inr ⟨h.1, rfl⟩
      · intro w nw; simp only [upd_apply]; split
        · exact fun h => .inl h
        · intro h
          cases l : H.vec w with
          | some nw' => rw [hs.vec w nw' l] at h; exact .inl h
          | none => exact .inr ⟨h, rfl⟩
      · intro K sk d _
        refine ⟨Sub.mk9 ?_ (fun c l => sk.eq9 l) ?_, ?_, ?_⟩
        · intro c l; dsimp only; rw [kl]; exact ⟨sk.live c l, fun h => d.here c (.inr ⟨v, nv, ev, h⟩) (.inl l)⟩
        · intro w nw hw
          simp only [upd_apply]; split
          · rename_i e; subst e; rw [d.vec w nv ev] at hw; cases hw
          · exact sk.vec w nw hw
        · intro c hh; refine d.here c ?_
          rcases hh with hh | ⟨w, nw, hw, h1, h2⟩
          · dsimp only at hh; rw [kl] at hh; exact .inl hh.1
          · simp only [upd_apply] at hw
            split at hw
            · cases hw
            · exact .inr ⟨w, nw, hw, h1, h2⟩
        · intro w nw hw
          simp only [upd_apply] at hw
          split at hw
          · cases hw
          · exact d.vec w nw hw
  | rcDrop o =>
    simp only [Acc.run, Trees.rcDrop] at e ⊢
    split at e
    · rename_i l
      rw [if_pos (hs.live o l), hs.count o l]
      split at e
      · rename_i c1
        cases e
        rw [if_pos c1]
        refine ⟨_, rfl, ⟨Sub.mk9 ?_ ?_ hs.vec, ⟨hc.nextAddr, hc.nextVec, ?_⟩, ?_, ?_, ?_⟩⟩
        · intro c; simp only [upd_apply]; split
          · exact fun h => h
          · exact hs.live c
        · intro c; simp only [upd_apply]; split
          · exact fun h => by cases h
          · rename_i co
            intro h
            obtain ⟨h1, h2, h3, h4, h5, h6, h7, h8, h9⟩ := hs.eq9 h
            refine ⟨h1, h2, h3, h4, h5, h6, h7, ?_, h9⟩
            simp only [upd_apply, if_neg co]; exact h8
        · dsimp only; rw [hc.log, hs.data o l]
        · intro c; simp only [upd_apply]; split
          · exact fun h => .inl h
          · intro h
            cases l : H.live c with
            | true => exact .inl rfl
            | false => exact .inr ⟨h, rfl⟩
        · intro w nw h
          cases l : H.vec w with
          | some nw' => rw [hs.vec w nw' l] at h; exact .inl h
          | none => exact .inr ⟨h, rfl⟩
        · intro K sk d _
          refine ⟨Sub.mk9 ?_ ?_ sk.vec, ?_, d.vec⟩
          · intro c lc; simp only [upd_apply, if_neg (d.ne l lc)]; exact sk.live c lc
          · intro c lc
            obtain ⟨h1, h2, h3, h4, h5, h6, h7, h8, h9⟩ := sk.eq9 lc
            refine ⟨h1, h2, h3, h4, h5, h6, h7, ?_, h9⟩
            simp only [upd_apply, if_neg (d.ne l lc)]; exact h8
          · intro c hh; refine d.here c ?_
            rcases hh with hh | hh
            · simp only [upd_apply] at hh
              split at hh
              · cases hh
              · exact .inl hh
            · exact .inr hh
      · rename_i c1
        rw [if_neg c1]
        split at e
        · cases e
        · rename_i c0
          cases e
          rw [if_neg c0]
          refine ⟨_, rfl, eff_node hs l rfl rfl rfl rfl ⟨hc.nextAddr, hc.nextVec, hc.log⟩ ?_ ?_ ?_⟩
          · intro c co; exact ⟨rfl, rfl, rfl, rfl, rfl, rfl, rfl, upd_of_ne _ _ co, rfl⟩
          · intro c co; exact ⟨rfl, rfl, rfl, rfl, rfl, rfl, rfl, upd_of_ne _ _ co, rfl⟩
          · obtain ⟨h1, h2, h3, h4, h5, h6, h7, h8, h9⟩ := hs.eq9 l
            refine ⟨h1, h2, h3, h4, h5, h6, h7, ?_, h9⟩
            simp only [upd_self]
    · cases e
  | make d =>
    simp only [Acc.run, makeNodeA] at e ⊢
    rw [if_pos (show A.okNode G = true from ok)]
    split at e
    · cases e
      simp only [hc.nextAddr, hc.nextVec]
      refine ⟨_, rfl, ⟨Sub.mk9 ?_ ?_ hs.vec, ⟨rfl, rfl, hc.log⟩, ?_, ?_, ?_⟩⟩
      · intro c; simp only [upd_apply]; split
        · exact fun _ => rfl
        · exact hs.live c
      · intro c; simp only [upd_apply, Eq9]; split
        · intro _; exact ⟨rfl, rfl, rfl, rfl, rfl, rfl, rfl, rfl, rfl⟩
        · exact fun h => hs.eq9 h
      · intro c; simp only [upd_apply]; split
        · exact fun h => .inl rfl
        · intro h
          cases l : H.live c with
          | true => exact .inl rfl
          | false => exact .inr ⟨h, rfl⟩
      · intro w nw h
        cases l : H.vec w with
        | some nw' => rw [hs.vec w nw' l] at h; exact .inl h
        | none => exact .inr ⟨h, rfl⟩
      · intro K sk dj out
        simp only [Out, hc.nextAddr] at out
        refine ⟨Sub.mk9 ?_ ?_ sk.vec, ?_, dj.vec⟩
        · intro c lc; simp only [upd_apply]; split
          · rfl
          · exact sk.live c lc
        · intro c lc; simp only [upd_apply, Eq9]; split
          · rename_i e; subst e; exact absurd (.inl lc) out
          · exact sk.eq9 lc
        · intro c hh kh
          rcases hh with hh | hh
          · simp only [upd_apply] at hh
            split at hh
            · rename_i e; subst e; exact out kh
            · exact dj.here c (.inl hh) kh
          · exact dj.here c (.inr hh) kh
    · cases e
  | newVec cap =>
    simp only [Acc.run, newVecA] at e ⊢
    rw [if_pos (show A.okBlock G (cap + 1) = true from ok)]
    split at e
    · cases e
      simp only [hc.nextAddr, hc.nextVec]
      refine ⟨_, rfl, ⟨Sub.mk9 ?_ ?_ ?_, ⟨rfl, rfl, hc.log⟩, ?_, ?_, ?_⟩⟩
      · intro c; dsimp only; split
        · exact fun _ => rfl
        · exact hs.live c
      · intro c; simp only [Eq9]; split
        · intro _; exact ⟨rfl, rfl, rfl, rfl, rfl, rfl, rfl, rfl, rfl⟩
        · exact fun h => hs.eq9 h
      · intro w nw; simp only [upd_apply]; split
        · exact fun h => h
        · exact hs.vec w nw
      · intro c; dsimp only; split
        · exact fun h => .inl rfl
        · intro h
          cases l : H.live c with
          | true => exact .inl rfl
          | false => exact .inr ⟨h, rfl⟩
      · intro w nw; simp only [upd_apply]; split
        · exact fun h => .inl h
        · intro h
          cases l : H.vec w with
          | some nw' => rw [hs.vec w nw' l] at h; exact .inl h
          | none => exact .inr ⟨h, rfl⟩
      · intro K sk dj out
        simp only [Out, hc.nextAddr, hc.nextVec] at out
        obtain ⟨o1, o2⟩ := out
        have o3 : ∀ c, A.addr H.nextAddr ≤ c ∧ c < A.addr H.nextAddr + (cap + 1) → ¬ K.Here c := by
          intro c hcc
          have := o2 (c - A.addr H.nextAddr) (by allomega)
          have e : A.addr H.nextAddr + (c - A.addr H.nextAddr) = c := by allomega
          rwa [e] at this
        refine ⟨Sub.mk9 ?_ ?_ ?_, ?_, ?_⟩
        · intro c lc; dsimp only; split
          · rfl
          · exact sk.live c lc
        · intro c lc; simp only [Eq9]; split
          · rename_i e; exact absurd (.inl lc) (o3 c e)
          · exact sk.eq9 lc
        · intro w nw hw; simp only [upd_apply]; split
          · rename_i e; subst e; rw [o1] at hw; cases hw
          · exact sk.vec w nw hw
        · intro c hh kh
          rcases hh with hh | ⟨w, nw, hw, h1, h2⟩
          · dsimp only at hh
            split at hh
            · rename_i e; exact o3 c e kh
            · exact dj.here c (.inl hh) kh
          · simp only [upd_apply] at hw
            split at hw
            · cases hw; exact o3 c ⟨h1, h2⟩ kh
            · exact dj.here c (.inr ⟨w, nw, hw, h1, h2⟩) kh
        · intro w nw hw
          simp only [upd_apply] at hw
          split at hw
          · rename_i e; subst e; exact o1
          · exact dj.vec w nw hw
    · cases e

/-! ### The allocator -/

theorem inUse_iff {H : Heap α} {x : Addr} : Trees.inUse A H x = true ↔ H.live x = true ∨ ∃ v nv, v < H.nextVec ∧ H.vec (A.vec v) = some nv ∧
    nv.base ≤ x ∧ x < nv.base + nv.cap := by
  simp only [Trees.inUse, Bool.or_eq_true, List.any_eq_true, List.mem_range]
  constructor
  · rintro (h | ⟨v, hv, h⟩)
    · exact .inl h
    · split at h
      · cases h
      · rename_i nv e; simp at h; exact .inr ⟨v, nv, hv, e, h⟩
  · rintro (h | ⟨v, nv, hv, e, h⟩)
    · exact .inl h
    · refine .inr ⟨v, hv, ?_⟩; rw [e]; simp [h]

theorem inUse_mono {H G : Heap α} (hs : Sub H G) (hc : Same3 H G) {x : Addr} (h : Trees.inUse A H x = true) : Trees.inUse A G x = true := by
  rw [inUse_iff] at h ⊢
  rcases h with h | ⟨v, nv, hv, e, h⟩
  · exact .inl (hs.live x h)
  · exact .inr ⟨v, nv, by rw [hc.nextVec]; exact hv, hs.vec _ nv e, h⟩

theorem okay_mono {H G : Heap α} (hs : Sub H G) (hc : Same3 H G) {a : Acc α} (h : Okay A G a) : Okay A H a := by
  cases a with
  | make d =>
    simp only [Okay, Alloc.okNode, Bool.not_eq_true', hc.nextAddr] at h ⊢
    cases e : Trees.inUse A H (A.addr H.nextAddr) with
    | false => rfl
    | true => rw [inUse_mono hs hc e] at h; cases h
  | newVec cap =>
    simp only [Okay, Alloc.okBlock, Bool.and_eq_true, List.all_eq_true, List.mem_range, decide_eq_true_eq, Bool.not_eq_true', hc.nextAddr, hc.nextVec,
      Option.isNone_iff_eq_none] at h ⊢
    refine ⟨?_, fun i hi => ⟨(h.2 i hi).1, ?_⟩⟩
    · cases e : H.vec (A.vec H.nextVec) with
      | none => rfl
      | some nv => rw [hs.vec _ nv e] at h; cases h.1
    · cases e : Trees.inUse A H (A.addr H.nextAddr + i) with
      | false => rfl
      | true => have := (h.2 i hi).2; rw [inUse_mono hs hc e] at this; cases this
  | _ => trivial

theorem okay_run {H H' : Heap α} {a : Acc α} (h : Okay A H a) : a.run A H ≠ .err .alloc H' := by
  intro e
  cases a with
  | make d => simp only [Acc.run, makeNodeA] at e; rw [if_pos (show A.okNode H = true from h)] at e; cases e
  | newVec cap => simp only [Acc.run, newVecA] at e; rw [if_pos (show A.okBlock H (cap + 1) = true from h)] at e; cases e
  | ptr f a => cases f <;> (cases l : H.live a <;> simp [Acc.run, Fld.get, Trees.getPrev, Trees.getNext, Trees.getHead, Trees.getTail, Trees.getUp, rd, l] at e <;> cases e)
  | setPtr f a v => cases f <;> (cases l : H.live a <;> simp [Acc.run, Fld.set, Trees.setPrev, Trees.setNext, Trees.setHead, Trees.setTail, Trees.setUp, wr, l] at e <;> cases e)
  | size a => cases l : H.live a <;> simp [Acc.run, Trees.getSize, rd, l] at e <;> cases e
  | setSize a _ => cases l : H.live a <;> simp [Acc.run, Trees.setSize, wr, l] at e <;> cases e
  | data a => cases l : H.live a <;> simp [Acc.run, Trees.getData, rd, l] at e <;> cases e
  | setData a _ => cases l : H.live a <;> simp [Acc.run, Trees.setData, wr, l] at e <;> cases e
  | vecNode v i =>
    simp only [Acc.run, Trees.vecNode] at e
    split at e
    · cases e
    · split at e <;> cases e
  | getRef v => simp only [Acc.run] at e; split at e <;> cases e
  | setRef v => simp only [Acc.run] at e; split at e <;> cases e
  | freeVec v => simp only [Acc.run] at e; split at e <;> cases e
  | bound => simp only [Acc.run] at e; cases e
  | logDrop d => simp only [Acc.run, Trees.logDrop] at e; cases e
  | rcDrop o =>
    simp only [Acc.run, Trees.rcDrop] at e
    split at e
    · split at e
      · cases e
      · split at e <;> cases e
    · cases e

/-- Blocks have names that the allocator has given out. -/
def Known (A : Alloc) (H : Heap α) : Prop := ∀ v nv, H.vec v = some nv → ∃ w, w < H.nextVec ∧ A.vec w = v

theorem known_run {a : Acc α} {H H' : Heap α} {x : a.Ret} (hk : Known A H) (e : a.run A H = .ok x H') : Known A H' := by
  have same : H'.vec = H.vec → H'.nextVec = H.nextVec → Known A H' := by
    intro e1 e2 v nv; rw [e1, e2]; exact hk v nv
  cases a with
  | make d =>
    simp only [Acc.run, makeNodeA] at e
    split at e
    · cases e; exact same rfl rfl
    · cases e
  | newVec cap =>
    simp only [Acc.run, newVecA] at e
    split at e
    · cases e
      intro v nv hv
      simp only [upd_apply] at hv
      split at hv
      · rename_i e; exact ⟨H.nextVec, Nat.lt_succ_self _, e.symm⟩
      · obtain ⟨w, h1, h2⟩ := hk v nv hv; exact ⟨w, Nat.lt_succ_of_lt h1, h2⟩
    · cases e
  | ptr f a => cases f <;> (obtain ⟨-, -, rfl⟩ := rd_ok e; exact same rfl rfl)
  | setPtr f a v =>
    cases f with
    | prev => obtain ⟨-, rfl⟩ := wr_ok (f := fun h => { h with prev := upd h.prev a v }) (b := a) e; exact same rfl rfl
    | next => obtain ⟨-, rfl⟩ := wr_ok (f := fun h => { h with next := upd h.next a v }) (b := a) e; exact same rfl rfl
    | head => obtain ⟨-, rfl⟩ := wr_ok (f := fun h => { h with head := upd h.head a v }) (b := a) e; exact same rfl rfl
    | tail => obtain ⟨-, rfl⟩ := wr_ok (f := fun h => { h with tail := upd h.tail a v }) (b := a) e; exact same rfl rfl
    | up => obtain ⟨-, rfl⟩ := wr_ok (f := fun h => { h with up := upd h.up a v }) (b := a) e; exact same rfl rfl
  | size a => obtain ⟨-, -, rfl⟩ := rd_ok e; exact same rfl rfl
  | setSize a v => obtain ⟨-, rfl⟩ := wr_ok (f := fun h => { h with size := upd h.size a v }) (b := a) e; exact same rfl rfl
  | data a => obtain ⟨-, -, rfl⟩ := rd_ok e; exact same rfl rfl
  | setData a v => obtain ⟨-, rfl⟩ := wr_ok (f := fun h => { h with data := upd h.data a v }) (b := a) e; exact same rfl rfl
  | vecNode v i =>
    simp only [Acc.run, Trees.vecNode] at e
    split at e
    · cases e
    · split at e
      · cases e; exact same rfl rfl
      · cases e
  | getRef v =>
    simp only [Acc.run] at e
    split at e
    · cases e
    · cases e; exact same rfl rfl
  | setRef v n =>
    simp only [Acc.run] at e
    split at e
    · cases e
    · rename_i nv ev
      cases e
      intro w nw hw
      simp only [upd_apply] at hw
      split at hw
      · rename_i e; subst e; exact hk w nv ev
      · exact hk w nw hw
  | freeVec v =>
    simp only [Acc.run] at e
    split at e
    · cases e
    · rename_i nv ev
      cases e
      intro w nw hw
      simp only [upd_apply] at hw
      split at hw
      · cases hw
      · exact hk w nw hw
  | bound => simp only [Acc.run] at e; cases e; exact same rfl rfl
  | logDrop d => simp only [Acc.run, Trees.logDrop] at e; cases e; exact same rfl rfl
  | rcDrop o =>
    simp only [Acc.run, Trees.rcDrop] at e
    split at e
    · split at e
      · cases e; exact same rfl rfl
      · split at e
        · cases e
        · cases e; exact same rfl rfl
    · cases e

/-! ### Systems -/

variable {n : Nat} {As : Fin n → Alloc}

theorem sys_inUse {s : Sys n α β} {x : Addr} : s.inUse As x = true ↔ s.mem.live x = true ∨ ∃ j v nv, v < (s.th j).nextVec ∧
    s.mem.vec ((As j).vec v) = some nv ∧ nv.base ≤ x ∧ x < nv.base + nv.cap := by
  simp only [Sys.inUse, Bool.or_eq_true, List.any_eq_true, List.mem_range, List.mem_finRange, true_and]
  constructor
  · rintro (h | ⟨j, v, hv, h⟩)
    · exact .inl h
    · split at h
      · cases h
      · rename_i nv e; simp at h; exact .inr ⟨j, v, nv, hv, e, h⟩
  · rintro (h | ⟨j, v, nv, hv, e, h⟩)
    · exact .inl h
    · refine .inr ⟨j, v, hv, ?_⟩; rw [e]; simp [h]

theorem free_okay {s : Sys n α β} {i : Fin n} {a : Acc α} (h : s.free As i a = true) : Okay (As i) ((s.th i).view s.mem) a := by
  have key : ∀ x, s.inUse As x = false → Trees.inUse (As i) ((s.th i).view s.mem) x = false := by
    intro x hx
    cases e : Trees.inUse (As i) ((s.th i).view s.mem) x with
    | false => rfl
    | true =>
      rw [inUse_iff] at e
      have : s.inUse As x = true := sys_inUse.mpr (by
        rcases e with e | ⟨v, nv, h1, h2, h3⟩
        · exact .inl e
        · exact .inr ⟨i, v, nv, h1, h2, h3⟩)
      rw [this] at hx; cases hx
  cases a with
  | make d =>
    simp only [Sys.free, Bool.not_eq_true'] at h
    simp only [Okay, Alloc.okNode, Bool.not_eq_true']
    exact key _ h
  | newVec cap =>
    simp only [Sys.free, Bool.and_eq_true, List.all_eq_true, List.mem_range, Bool.not_eq_true'] at h
    simp only [Okay, Alloc.okBlock, Bool.and_eq_true, List.all_eq_true, List.mem_range, Bool.not_eq_true']
    exact ⟨h.1, fun k hk => ⟨(h.2 k hk).1, key _ (h.2 k hk).2⟩⟩
  | _ => trivial

/-- The memory of each thread, on its own. -/
structure Rel (As : Fin n → Alloc) (s : Sys n α β) (H : Fin n → Heap α) : Prop where
  sub : ∀ i, Sub (H i) s.mem
  same : ∀ i, Same3 (H i) ((s.th i).view s.mem)
  disj : ∀ i j, i ≠ j → Disj (H i) (H j)
  known : ∀ i, Known (As i) (H i)
  live : ∀ a, s.mem.live a = true → ∃ i, (H i).live a = true
  vec : ∀ v nv, s.mem.vec v = some nv → ∃ i, (H i).vec v = some nv

theorem Sub.view {H G : Heap α} (hs : Sub H G) (t : Thread α β) : Sub H (t.view G) :=
  ⟨hs.live, hs.prev, hs.next, hs.head, hs.tail, hs.up, hs.size, hs.data, hs.count, hs.borrow, hs.vec⟩

theorem free_out {s : Sys n α β} {H : Fin n → Heap α} (R : Rel As s H) {i : Fin n} {a : Acc α} (h : s.free As i a = true) (j : Fin n) :
    Out (As i) ((s.th i).view s.mem) (H j) a := by
  have key : ∀ x, s.inUse As x = false → ¬ (H j).Here x := by
    intro x hx hh
    have : s.inUse As x = true := sys_inUse.mpr (by
      rcases hh with hh | ⟨v, nv, e, h1⟩
      · exact .inl ((R.sub j).live x hh)
      · obtain ⟨w, hw, rfl⟩ := R.known j v nv e
        exact .inr ⟨j, w, nv, by have := (R.same j).nextVec; simp only [Thread.view] at this; omega, (R.sub j).vec _ nv e, h1⟩)
    rw [this] at hx; cases hx
  cases a with
  | make d =>
    simp only [Sys.free, Bool.not_eq_true'] at h
    exact key _ h
  | newVec cap =>
    simp only [Sys.free, Bool.and_eq_true, List.all_eq_true, List.mem_range, Bool.not_eq_true', Option.isNone_iff_eq_none] at h
    refine ⟨?_, fun k hk => key _ (h.2 k hk).2⟩
    cases e : (H j).vec ((As i).vec ((s.th i).view s.mem).nextVec) with
    | none => rfl
    | some nv => have := (R.sub j).vec _ nv e; exact absurd (this.symm.trans h.1) (by simp)
  | _ => trivial

/-- One access of a thread that has the memory to itself. -/
def alone (A : Alloc) : Heap α × Prog α β → Heap α × Prog α β
  | (h, .acc a k) => match a.run A h with
    | .ok x h' => (h', k x)
    | .err e h' => (h', .fail e)
  | q => q

/-- On its own the thread only ever fails because of the allocator. -/
def Good (A : Alloc) (q : Heap α × Prog α β) : Prop := ∀ e h', q.2.run A q.1 = .err e h' → e = .alloc

theorem Good.alone {q : Heap α × Prog α β} (g : Good A q) : Good A (alone A q) := by
  obtain ⟨h, p⟩ := q
  cases p with
  | ret b => exact g
  | fail e => exact g
  | acc a k =>
    intro e h' hr
    simp only [Fine.alone] at hr
    have := g e h'
    simp only [Prog.run] at this
    cases er : a.run A h with
    | ok x h1 => rw [er] at hr this; exact this hr
    | err e1 h1 =>
      rw [er] at hr this
      simp only [Prog.run, Res.err.injEq] at hr
      obtain ⟨rfl, rfl⟩ := hr
      exact this rfl

theorem Good.next {H : Heap α} {a : Acc α} {k : a.Ret → Prog α β} (g : Good A (H, .acc a k)) :
    (∃ x H', a.run A H = .ok x H') ∨ ∃ H', a.run A H = .err .alloc H' := by
  cases e : a.run A H with
  | ok x H' => exact .inl ⟨x, H', rfl⟩
  | err e1 H' =>
    have := g e1 H' (by simp only [Prog.run]; rw [e]; rfl)
    subst this
    exact .inr ⟨H', rfl⟩

theorem rel_step {s s' : Sys n α β} {H : Fin n → Heap α} (R : Rel As s H) (g : ∀ i, Good (As i) (H i, (s.th i).prog)) {i : Fin n}
    (e : s.step As i = some s') : ∃ H', Rel As s' H' ∧
      ∀ j, (H' j, (s'.th j).prog) = if j = i then alone (As i) (H i, (s.th i).prog) else (H j, (s.th j).prog) := by
  have stay : ∀ p, (s.th i).prog = p → (∀ a k, p ≠ .acc a k) → s' = s → ∃ H', Rel As s' H' ∧
      ∀ j, (H' j, (s'.th j).prog) = if j = i then Fine.alone (As i) (H i, (s.th i).prog) else (H j, (s.th j).prog) := by
    rintro p hp hn rfl
    refine ⟨H, R, fun j => ?_⟩
    split
    · rename_i e; subst e
      rw [hp]
      cases p with
      | acc a k => exact absurd rfl (hn a k)
      | ret b => rfl
      | fail e => rfl
    · rfl
  simp only [Sys.step] at e
  cases hp : (s.th i).prog with
  | ret b => rw [hp] at e; exact hp ▸ stay _ hp (by intro a k h; cases h) (by simpa using e.symm)
  | fail x => rw [hp] at e; exact hp ▸ stay _ hp (by intro a k h; cases h) (by simpa using e.symm)
  | acc a k =>
    rw [hp] at e
    dsimp only at e
    split at e
    · rename_i fr
      have hok := free_okay fr
      have hS := (R.sub i).view (s.th i)
      have gi := g i
      rw [hp] at gi
      rcases gi.next with ⟨x, H1, er⟩ | ⟨H1, er⟩
      · obtain ⟨G1, eg, E⟩ := acc_part hS (R.same i) er hok
        rw [eg] at e
        simp only [Option.some.injEq] at e
        subst e
        have ne : ∀ j, j ≠ i → Sub (H j) G1 ∧ Disj H1 (H j) := fun j hj =>
          E.other (H j) ((R.sub j).view _) (R.disj i j (Ne.symm hj)) (free_out R fr j)
        refine ⟨fun j => if j = i then H1 else H j, ⟨?_, ?_, ?_, ?_, ?_, ?_⟩, ?_⟩
        · intro j; (try dsimp only); split
          · exact E.sub
          · rename_i hj; exact (ne j hj).1
        · intro j; dsimp only [Sys.set]; split
          · exact ⟨E.same.nextAddr, E.same.nextVec, E.same.log⟩
          · exact ⟨(R.same j).nextAddr, (R.same j).nextVec, (R.same j).log⟩
        · intro j l hjl; split
          · rename_i h1; subst h1
            rw [if_neg (Ne.symm hjl)]
            exact (ne l (Ne.symm hjl)).2
          · rename_i h1
            split
            · rename_i h2; subst h2
              have := (ne j h1).2
              refine ⟨fun a h3 h4 => this.here a h4 h3, fun v nv h3 => ?_⟩
              cases h4 : H1.vec v with
              | none => rfl
              | some nw => rw [this.vec v nw h4] at h3; cases h3
            · exact R.disj j l hjl
        · intro j; (try dsimp only); split
          · rename_i h1; subst h1; exact known_run (R.known j) er
          · exact R.known j
        · intro b hb
          rcases E.live b hb with h | ⟨h1, h2⟩
          · exact ⟨i, by rw [if_pos rfl]; exact h⟩
          · obtain ⟨j, hj⟩ := R.live b h1
            refine ⟨j, ?_⟩
            split
            · rename_i h3; subst h3; rw [hj] at h2; cases h2
            · exact hj
        · intro v nv hv
          rcases E.vec v nv hv with h | ⟨h1, h2⟩
          · exact ⟨i, by rw [if_pos rfl]; exact h⟩
          · obtain ⟨j, hj⟩ := R.vec v nv h1
            refine ⟨j, ?_⟩
            split
            · rename_i h3; subst h3; rw [hj] at h2; cases h2
            · exact hj
        · intro j; dsimp only [Sys.set]; split
          · rename_i h1; subst h1
            simp only [Fine.alone, er]
          · rfl
      · exact absurd er (okay_run (okay_mono hS (R.same i) hok))
    · cases e

/-- Every schedule: each thread is where it would be on its own. -/
theorem rel_run {s s' : Sys n α β} {H : Fin n → Heap α} (R : Rel As s H) (g : ∀ i, Good (As i) (H i, (s.th i).prog)) {sched : List (Fin n)}
    (e : s.run As sched = some s') : ∃ H', Rel As s' H' ∧ (∀ i, Good (As i) (H' i, (s'.th i).prog)) ∧
      ∀ j, (H' j, (s'.th j).prog) = (alone (As j))^[sched.count j] (H j, (s.th j).prog) := by
  induction sched generalizing s H with
  | nil => simp only [Sys.run, Option.some.injEq] at e; subst e; exact ⟨H, R, g, fun j => rfl⟩
  | cons i is ih =>
    simp only [Sys.run] at e
    cases e1 : s.step As i with
    | none => rw [e1] at e; cases e
    | some s1 =>
      rw [e1] at e
      obtain ⟨H1, R1, h1⟩ := rel_step R g e1
      have g1 : ∀ j, Good (As j) (H1 j, (s1.th j).prog) := by
        intro j
        rw [h1 j]
        split
        · rename_i h; subst h; exact (g j).alone
        · exact g j
      obtain ⟨H2, R2, g2, h2⟩ := ih R1 g1 e
      refine ⟨H2, R2, g2, fun j => ?_⟩
      rw [h2 j, h1 j, List.count_cons]
      by_cases hj : j = i
      · subst hj; simp only [if_pos, BEq.rfl, Function.iterate_add_apply, Function.iterate_one, if_true]
      · have : (i == j) = false := by simp [Ne.symm hj]
        rw [if_neg hj, this]; simp

theorem node_live {a : Acc α} {H H' : Heap α} {x : a.Ret} {b : Addr} (e : a.run A H = .ok x H') (h : a.node? = some b) : H.live b = true := by
  cases a with
  | ptr f c => simp only [Acc.node?, Option.some.injEq] at h; subst h; cases f <;> exact (rd_ok e).1
  | setPtr f c v =>
    simp only [Acc.node?, Option.some.injEq] at h; subst h
    cases f with
    | prev => exact (wr_ok (f := fun h => { h with prev := upd h.prev c v }) (b := c) e).1
    | next => exact (wr_ok (f := fun h => { h with next := upd h.next c v }) (b := c) e).1
    | head => exact (wr_ok (f := fun h => { h with head := upd h.head c v }) (b := c) e).1
    | tail => exact (wr_ok (f := fun h => { h with tail := upd h.tail c v }) (b := c) e).1
    | up => exact (wr_ok (f := fun h => { h with up := upd h.up c v }) (b := c) e).1
  | size c => simp only [Acc.node?, Option.some.injEq] at h; subst h; exact (rd_ok e).1
  | setSize c v => simp only [Acc.node?, Option.some.injEq] at h; subst h; exact (wr_ok (f := fun h => { h with size := upd h.size c v }) (b := c) e).1
  | data c => simp only [Acc.node?, Option.some.injEq] at h; subst h; exact (rd_ok e).1
  | setData c v => simp only [Acc.node?, Option.some.injEq] at h; subst h; exact (wr_ok (f := fun h => { h with data := upd h.data c v }) (b := c) e).1
  | rcDrop c =>
    simp only [Acc.node?, Option.some.injEq] at h; subst h
    simp only [Acc.run, Trees.rcDrop] at e
    split at e
    · assumption
    · cases e
  | _ => cases h

theorem vec_there {a : Acc α} {H H' : Heap α} {x : a.Ret} {v : Nat} (e : a.run A H = .ok x H') (h : a.vec? = some v) : ∃ nv, H.vec v = some nv := by
  cases a with
  | vecNode w i => simp only [Acc.vec?, Option.some.injEq] at h; subst h; simp only [Acc.run, Trees.vecNode] at e; split at e; cases e; exact ⟨_, by assumption⟩
  | getRef w => simp only [Acc.vec?, Option.some.injEq] at h; subst h; simp only [Acc.run] at e; split at e; cases e; exact ⟨_, by assumption⟩
  | setRef w _ => simp only [Acc.vec?, Option.some.injEq] at h; subst h; simp only [Acc.run] at e; split at e; cases e; exact ⟨_, by assumption⟩
  | freeVec w => simp only [Acc.vec?, Option.some.injEq] at h; subst h; simp only [Acc.run] at e; split at e; cases e; exact ⟨_, by assumption⟩
  | _ => cases h

/-- Memory accesses do not allocate. -/
theorem Good.touch {H : Heap α} {a : Acc α} {k : a.Ret → Prog α β} (g : Good A (H, .acc a k)) (h : a.node? ≠ none ∨ a.vec? ≠ none) :
    ∃ x H', a.run A H = .ok x H' := by
  rcases g.next with h1 | ⟨H', e⟩
  · exact h1
  · refine absurd e (okay_run ?_)
    cases a <;> first | trivial | (rcases h with h | h <;> exact absurd rfl h)

theorem rel_norace {s : Sys n α β} {H : Fin n → Heap α} (R : Rel As s H) (g : ∀ i, Good (As i) (H i, (s.th i).prog)) : ¬ s.Race := by
  rintro ⟨i, j, a, ka, b, kb, hij, ea, eb, -, hc⟩
  have ga := g i
  have gb := g j
  rw [ea] at ga
  rw [eb] at gb
  rcases hc with ⟨x, h1, h2⟩ | ⟨v, h1, h2⟩ | ⟨v, nv, x, rfl, hv, h2, h3⟩
  · obtain ⟨_, _, e1⟩ := ga.touch (.inl (by rw [h1]; simp))
    obtain ⟨_, _, e2⟩ := gb.touch (.inl (by rw [h2]; simp))
    exact (R.disj i j hij).here x (.inl (node_live e1 h1)) (.inl (node_live e2 h2))
  · obtain ⟨_, _, e1⟩ := ga.touch (.inr (by rw [h1]; simp))
    obtain ⟨_, _, e2⟩ := gb.touch (.inr (by rw [h2]; simp))
    obtain ⟨nv, f1⟩ := vec_there e1 h1
    obtain ⟨nw, f2⟩ := vec_there e2 h2
    have := (R.disj i j hij).vec v nv f1
    rw [f2] at this; cases this
  · obtain ⟨_, _, e1⟩ := ga.touch (.inr (by simp [Acc.vec?]))
    obtain ⟨_, _, e2⟩ := gb.touch (.inl (by rw [h2]; simp))
    obtain ⟨nw, f1⟩ := vec_there e1 rfl
    have := (R.sub i).vec v nw f1
    rw [hv] at this
    obtain rfl := Option.some.inj this
    exact (R.disj i j hij).here x (.inr ⟨v, nv, f1, h3⟩) (.inl (node_live e2 h2))

/-- A thread on its own comes to an end. -/
theorem alone_ends (A : Alloc) (p : Prog α β) (h : Heap α) : ∃ N, ∀ k, N ≤ k → (∃ b, ((alone A)^[k] (h, p)).2 = .ret b) ∨ ∃ e, ((alone A)^[k] (h, p)).2 = .fail e := by
  induction p generalizing h with
  | ret b =>
    refine ⟨0, fun k _ => .inl ⟨b, ?_⟩⟩
    induction k with
    | zero => rfl
    | succ k ih => rw [Function.iterate_succ_apply]; exact ih (Nat.zero_le _)
  | fail b =>
    refine ⟨0, fun k _ => .inr ⟨b, ?_⟩⟩
    induction k with
    | zero => rfl
    | succ k ih => rw [Function.iterate_succ_apply]; exact ih (Nat.zero_le _)
  | acc a f ih =>
    cases e : a.run A h with
    | ok x h' =>
      obtain ⟨N, hN⟩ := ih x h'
      refine ⟨N + 1, fun k hk => ?_⟩
      obtain ⟨k, rfl⟩ := Nat.exists_eq_succ_of_ne_zero (show k ≠ 0 by omega)
      rw [Function.iterate_succ_apply]
      simp only [alone, e]
      exact hN k (by omega)
    | err x h' =>
      refine ⟨1, fun k hk => .inr ⟨x, ?_⟩⟩
      obtain ⟨k, rfl⟩ := Nat.exists_eq_succ_of_ne_zero (show k ≠ 0 by omega)
      rw [Function.iterate_succ_apply]
      simp only [alone, e]
      clear hk
      induction k with
      | zero => rfl
      | succ k ih => rw [Function.iterate_succ_apply]; exact ih

/-- What a thread returns is what the uninterrupted run returns. -/
theorem alone_run {A : Alloc} {q : Heap α × Prog α β} {k : Nat} {b : β} (e : ((alone A)^[k] q).2 = .ret b) :
    q.2.run A q.1 = .ok b ((alone A)^[k] q).1 := by
  induction k generalizing q with
  | zero => simp only [Function.iterate_zero, id_eq] at e ⊢; rw [e]; rfl
  | succ k ih =>
    rw [Function.iterate_succ_apply] at e ⊢
    have := ih e
    obtain ⟨h, p⟩ := q
    cases p with
    | ret b => exact this
    | fail x => exact this
    | acc a f =>
      simp only [alone] at this e ⊢
      cases er : a.run A h with
      | ok x h1 => rw [er] at this; simp only [Prog.run, er, Res.bind]; exact this
      | err x h1 => rw [er] at this; simp only [Prog.run] at this; cases this

end Fine
end Trees
