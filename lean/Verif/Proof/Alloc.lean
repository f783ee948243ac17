import Verif.Model.Alloc
/-
Where the allocator puts nodes does not matter: a heap with reused addresses is the heap of Model/Node up to renaming of
the live addresses, and the code evolves the two in the same way.
-/
namespace Trees
set_option linter.unusedSimpArgs false
set_option linter.unusedVariables false
/-- `omega` after unfolding `Addr`. -/
macro "allomega" : tactic => `(tactic| ((try simp only [Addr] at *); omega))
variable {α β γ δ κ σ : Type}

/-- Rename the owner. -/
def Data.ren (A : Alloc) : Data α → Data α
  | .none => .none
  | .scatteredNone o => .scatteredNone (A.addr o)
  | .scattered d o => .scattered d (A.addr o)
  | .piledNone o => .piledNone (A.vec o)
  | .piled d o => .piled d (A.vec o)

/-- There is memory of a node at `a`: a live node or a slot (used or not) of a block. -/
def Heap.Here (H : Heap α) (a : Addr) : Prop :=
  H.live a = true ∨ ∃ v nv, H.vec v = some nv ∧ nv.base ≤ a ∧ a < nv.base + nv.cap

/-- `L` is `H` with the addresses that the allocator has chosen. -/
structure ARel (A : Alloc) (L H : Heap α) : Prop where
  live : ∀ a, H.live a = true → L.live (A.addr a) = true
  onto : ∀ x, L.live x = true → ∃ a, H.live a = true ∧ A.addr a = x
  inj : ∀ a b, H.Here a → H.Here b → A.addr a = A.addr b → a = b
  prev : ∀ a, H.Here a → L.prev (A.addr a) = (H.prev a).map A.addr
  next : ∀ a, H.Here a → L.next (A.addr a) = (H.next a).map A.addr
  head : ∀ a, H.Here a → L.head (A.addr a) = (H.head a).map A.addr
  tail : ∀ a, H.Here a → L.tail (A.addr a) = (H.tail a).map A.addr
  up : ∀ a, H.Here a → L.up (A.addr a) = (H.up a).map A.addr
  size : ∀ a, H.Here a → L.size (A.addr a) = H.size a
  data : ∀ a, H.Here a → L.data (A.addr a) = (H.data a).ren A
  count : ∀ a, H.Here a → L.count (A.addr a) = H.count a
  borrow : ∀ a, H.Here a → L.borrow (A.addr a) = H.borrow a
  vec : ∀ v nv, H.vec v = some nv → L.vec (A.vec v) = some ⟨A.addr nv.base, nv.cap, nv.refCnt⟩
  vonto : ∀ w nw, L.vec w = some nw → ∃ v nv, H.vec v = some nv ∧ A.vec v = w
  vinj : ∀ v w nv nw, H.vec v = some nv → H.vec w = some nw → A.vec v = A.vec w → v = w
  slots : ∀ v nv, H.vec v = some nv → ∀ i, i < nv.cap → A.addr (nv.base + i) = A.addr nv.base + i
  sep : ∀ v nv, H.vec v = some nv → ∀ a, H.Here a → A.addr nv.base ≤ A.addr a → A.addr a < A.addr nv.base + nv.cap →
    nv.base ≤ a ∧ a < nv.base + nv.cap
  known : ∀ v nv, H.vec v = some nv → v < H.nextVec
  lbnd : ∀ a, H.live a = true → a < H.nextAddr
  vbnd : ∀ v nv, H.vec v = some nv → nv.base + nv.cap ≤ H.nextAddr
  nextAddr : L.nextAddr = H.nextAddr
  nextVec : L.nextVec = H.nextVec
  log : L.log = H.log

/-- Related results: unless the allocator breaks its contract (which happens only if `P`), or the model is stuck, the
concrete run does the same and its result is `f` of the result of the model. -/
def ARes (A : Alloc) (P : Prop) (f : δ → γ) : Res (Heap α) γ → Res (Heap α) δ → Prop
  | _, .err .ub _ => True
  | _, .err .fuel _ => True
  | _, .err .alloc _ => True
  | .err .alloc _, _ => P
  | .ok b L, .ok b' H => b = f b' ∧ ARel A L H
  | .err .panic L, .err .panic H => ARel A L H
  | _, _ => False

/-- Programs that do the same on related heaps. -/
def ASim (A : Alloc) (P : Prop) (f : δ → γ) (c : M α γ) (c' : M α δ) : Prop :=
  ∀ L H, ARel A L H → ARes A P f (c L) (c' H)

variable {A : Alloc} {P : Prop}

theorem ARes.ub {f : δ → γ} (r : Res (Heap α) γ) (H : Heap α) : ARes A P f r (.err .ub H) := by
  cases r with
  | ok b L => trivial
  | err e L => cases e <;> trivial
theorem ARes.fuel {f : δ → γ} (r : Res (Heap α) γ) (H : Heap α) : ARes A P f r (.err .fuel H) := by
  cases r with
  | ok b L => trivial
  | err e L => cases e <;> trivial

theorem ASim.pure {f : δ → γ} {b : γ} {b' : δ} (h : b = f b') : ASim A P f (Pure.pure b : M α γ) (Pure.pure b' : M α δ) :=
  fun _ _ r => ⟨h, r⟩
theorem ASim.pureId (b : γ) : ASim A P id (Pure.pure b : M α γ) (Pure.pure b : M α γ) := ASim.pure rfl

theorem ASim.throw {f : δ → γ} (e : Err) : ASim A P f (M.throw e : M α γ) (M.throw e : M α δ) := by
  intro L H r
  cases e
  · exact r
  all_goals trivial

theorem ASim.bind {γ' δ' : Type} {f : δ → γ} {g : δ' → γ'} {c : M α γ} {c' : M α δ}
    {k : γ → M α γ'} {k' : δ → M α δ'} (hc : ASim A P f c c') (hk : ∀ b, ASim A P g (k (f b)) (k' b)) :
    ASim A P g (c >>= k) (c' >>= k') := by
  intro L H r
  have h1 := hc L H r
  simp only [M.bind_apply]
  revert h1
  generalize c L = q
  generalize c' H = q'
  intro h1
  match q, q', h1 with
  | .err .alloc _, .ok b' H', h =>
    show ARes A P g (.err .alloc _) (k' b' H')
    generalize k' b' H' = q
    cases q with
    | ok b L => exact h
    | err e L => cases e <;> first | exact h | trivial
  | .err .alloc _, .err .panic _, h => exact h
  | .ok _ _, .err .ub _, _ => exact ARes.ub _ _
  | .ok _ _, .err .fuel _, _ => exact ARes.fuel _ _
  | .ok _ _, .err .alloc _, _ =>
    generalize Res.bind (.ok _ _) _ = q
    cases q with
    | ok b L => trivial
    | err e L => cases e <;> trivial
  | .err e _, .err .ub _, _ => exact ARes.ub _ _
  | .err e _, .err .fuel _, _ => exact ARes.fuel _ _
  | .err e _, .err .alloc _, _ => cases e <;> trivial
  | .ok b L, .ok b' H, h =>
    obtain ⟨rfl, h⟩ := h
    exact hk b' L H h
  | .err .panic L, .err .panic H, h => exact h

theorem ASim.bindId {γ' δ' : Type} {g : δ' → γ'} {c : M α γ} {c' : M α γ}
    {k : γ → M α γ'} {k' : γ → M α δ'} (hc : ASim A P id c c') (hk : ∀ b, ASim A P g (k b) (k' b)) :
    ASim A P g (c >>= k) (c' >>= k') := hc.bind hk

theorem ASim.bindAddr {γ' δ' : Type} {g : δ' → γ'} {c : M α Addr} {c' : M α Addr}
    {k : Addr → M α γ'} {k' : Addr → M α δ'} (hc : ASim A P A.addr c c') (hk : ∀ b, ASim A P g (k (A.addr b)) (k' b)) :
    ASim A P g (c >>= k) (c' >>= k') := hc.bind hk

theorem ASim.bindOpt {γ' δ' : Type} {g : δ' → γ'} {c : M α (Option Addr)} {c' : M α (Option Addr)}
    {k : Option Addr → M α γ'} {k' : Option Addr → M α δ'} (hc : ASim A P (Option.map A.addr) c c')
    (h1 : ASim A P g (k none) (k' none)) (h2 : ∀ b, ASim A P g (k (some (A.addr b))) (k' (some b))) :
    ASim A P g (c >>= k) (c' >>= k') := hc.bind fun b => by cases b <;> simp [h1, h2]

theorem ASim.map {γ' δ' : Type} {f : δ → γ} {g : δ' → γ'} {c : M α γ} {c' : M α δ} {k : γ → γ'} {k' : δ → δ'}
    (hc : ASim A P f c c') (h : ∀ b, k (f b) = g (k' b)) : ASim A P g (k <$> c) (k' <$> c') := by
  have e1 : (k <$> c) = (c >>= fun b => Pure.pure (k b)) := by funext h; simp
  have e2 : (k' <$> c') = (c' >>= fun b => Pure.pure (k' b)) := by funext h; simp
  rw [e1, e2]
  exact hc.bind fun b => .pure (h b)
theorem ASim.mapId {γ' : Type} {c c' : M α γ} {k : γ → γ'} (hc : ASim A P id c c') : ASim A P id (k <$> c) (k <$> c') :=
  hc.map fun _ => rfl

theorem ASim.mono {f g : δ → γ} {c : M α γ} {c' : M α δ} (hc : ASim A P f c c') (h : ∀ b, f b = g b) : ASim A P g c c' := by
  have : f = g := funext h
  exact this ▸ hc

theorem ASim.fuelled {f : δ → γ} {k : Heap α → M α γ} {k' : Heap α → M α δ}
    (h : ∀ L H, ARel A L H → ASim A P f (k L) (k' H)) : ASim A P f (M.fuelled k) (M.fuelled k') :=
  fun L H r => h L H r L H r

/-- A budget read from the node itself. -/
theorem ASim.fuelledSize {f : δ → γ} {k : Size → M α γ} {k' : Size → M α δ} {a : Addr}
    (h : ∀ s, ASim A P f (k s) (k' s)) (hd : ∀ (H : Heap α) s, H.live a = false → ∃ H', k' s H = .err .ub H') :
    ASim A P f (M.fuelled fun h => k (h.size (A.addr a))) (M.fuelled fun h => k' (h.size a)) := by
  intro L H r
  simp only [M.fuelled_apply]
  by_cases hl : H.live a = true
  · rw [r.size a (.inl hl)]; exact h _ L H r
  · obtain ⟨H', e⟩ := hd H (H.size a) (by simpa using hl)
    rw [e]; exact ARes.ub _ _

theorem ASim.unwrapNone : ASim A P A.addr (Trees.unwrap none : M α Addr) (Trees.unwrap none : M α Addr) := .throw _
theorem ASim.unwrapSome (a : Addr) : ASim A P A.addr (Trees.unwrap (some (A.addr a)) : M α Addr) (Trees.unwrap (some a) : M α Addr) :=
  .pure rfl

theorem ASim.rd {f : δ → γ} {k : Heap α → Addr → γ} {k' : Heap α → Addr → δ} {a : Addr}
    (hf : ∀ L H, ARel A L H → H.live a = true → k L (A.addr a) = f (k' H a)) : ASim A P f (rd k (A.addr a)) (rd k' a) := by
  intro L H r
  simp only [Trees.rd]
  by_cases hl : H.live a = true
  · rw [if_pos hl, if_pos (r.live a hl)]; exact ⟨hf L H r hl, r⟩
  · rw [if_neg hl]; exact ARes.ub _ _

theorem ASim.wr {k k' : Heap α → Heap α} {a : Addr}
    (hf : ∀ L H, ARel A L H → H.live a = true → ARel A (k L) (k' H)) : ASim A P id (wr k (A.addr a)) (wr k' a) := by
  intro L H r
  simp only [Trees.wr]
  by_cases hl : H.live a = true
  · rw [if_pos hl, if_pos (r.live a hl)]; exact ⟨rfl, hf L H r hl⟩
  · rw [if_neg hl]; exact ARes.ub _ _

theorem al_getPrev (a : Addr) : ASim A P (Option.map A.addr) (getPrev (A.addr a) : M α _) (getPrev a) := .rd fun L H r hl => r.prev a (.inl hl)
theorem al_getNext (a : Addr) : ASim A P (Option.map A.addr) (getNext (A.addr a) : M α _) (getNext a) := .rd fun L H r hl => r.next a (.inl hl)
theorem al_getHead (a : Addr) : ASim A P (Option.map A.addr) (getHead (A.addr a) : M α _) (getHead a) := .rd fun L H r hl => r.head a (.inl hl)
theorem al_getTail (a : Addr) : ASim A P (Option.map A.addr) (getTail (A.addr a) : M α _) (getTail a) := .rd fun L H r hl => r.tail a (.inl hl)
theorem al_getUp (a : Addr) : ASim A P (Option.map A.addr) (getUp (A.addr a) : M α _) (getUp a) := .rd fun L H r hl => r.up a (.inl hl)
theorem al_getSize (a : Addr) : ASim A P id (getSize (A.addr a) : M α _) (getSize a) := .rd fun L H r hl => r.size a (.inl hl)
theorem al_getData (a : Addr) : ASim A P (Data.ren A) (getData (A.addr a) : M α _) (getData a) := .rd fun L H r hl => r.data a (.inl hl)

/-- Writing related values to related places. -/
theorem ARel.write {L H : Heap α} (r : ARel A L H) {a : Addr} (ha : H.Here a) {u : Addr → γ} {u' : Addr → δ} {g : δ → γ}
    (hu : ∀ b, H.Here b → u (A.addr b) = g (u' b)) (x : δ) :
    ∀ b, H.Here b → upd u (A.addr a) (g x) (A.addr b) = g (upd u' a x b) := by
  intro b hb
  simp only [upd_apply]
  by_cases e : b = a
  · subst e; simp
  · rw [if_neg e, if_neg (fun e' => e (r.inj b a hb ha e'))]; exact hu b hb

theorem al_setPrev (a : Addr) (v : Option Addr) : ASim A P id (setPrev (A.addr a) (v.map A.addr) : M α _) (setPrev a v) :=
  .wr fun L H r hl => { r with prev := r.write (.inl hl) (g := Option.map A.addr) r.prev v }
theorem al_setNext (a : Addr) (v : Option Addr) : ASim A P id (setNext (A.addr a) (v.map A.addr) : M α _) (setNext a v) :=
  .wr fun L H r hl => { r with next := r.write (.inl hl) (g := Option.map A.addr) r.next v }
theorem al_setHead (a : Addr) (v : Option Addr) : ASim A P id (setHead (A.addr a) (v.map A.addr) : M α _) (setHead a v) :=
  .wr fun L H r hl => { r with head := r.write (.inl hl) (g := Option.map A.addr) r.head v }
theorem al_setTail (a : Addr) (v : Option Addr) : ASim A P id (setTail (A.addr a) (v.map A.addr) : M α _) (setTail a v) :=
  .wr fun L H r hl => { r with tail := r.write (.inl hl) (g := Option.map A.addr) r.tail v }
theorem al_setUp (a : Addr) (v : Option Addr) : ASim A P id (setUp (A.addr a) (v.map A.addr) : M α _) (setUp a v) :=
  .wr fun L H r hl => { r with up := r.write (.inl hl) (g := Option.map A.addr) r.up v }
theorem al_setSize (a : Addr) (v : Size) : ASim A P id (setSize (A.addr a) v : M α _) (setSize a v) :=
  .wr fun L H r hl => { r with size := r.write (.inl hl) (g := id) r.size v }
theorem al_setData (a : Addr) (d : Data α) : ASim A P id (setData (A.addr a) (d.ren A)) (setData a d) :=
  .wr fun L H r hl => { r with data := r.write (.inl hl) (g := Data.ren A) r.data d }
theorem al_logDrop (d : α) : ASim A P id (logDrop d) (logDrop d) :=
  fun L H r => ⟨rfl, { r with log := by simp only [r.log] }⟩

theorem Data.ren_val (d : Data α) : (d.ren A).val? = d.val? := by cases d <;> rfl
theorem Data.ren_isForest (d : Data α) : (d.ren A).isForest = d.isForest := by cases d <;> rfl

theorem Heap.Here.of {H H' : Heap α} {a : Addr} (h : H'.Here a) (hl : ∀ b, H'.live b = true → H.live b = true)
    (hv : ∀ w nw, H'.vec w = some nw → ∃ nw', H.vec w = some nw' ∧ nw'.base = nw.base ∧ nw'.cap = nw.cap) : H.Here a := by
  rcases h with h | ⟨v, nv, h1, h2, h3⟩
  · exact .inl (hl a h)
  · obtain ⟨nv', g1, g2, g3⟩ := hv v nv h1
    exact .inr ⟨v, nv', g1, by rw [g2]; exact h2, by rw [g2, g3]; exact h3⟩

theorem al_rcDrop (o : Addr) : ASim A P id (rcDrop (A.addr o) : M α _) (rcDrop o) := by
  intro L H r
  simp only [rcDrop]
  by_cases hl : H.live o = true
  · rw [if_pos hl, if_pos (r.live o hl), r.count o (.inl hl)]
    have hsub : ∀ b, upd H.live o false b = true → H.live b = true ∧ b ≠ o := by
      intro b hb
      simp only [upd_apply] at hb
      split at hb
      · simp at hb
      · exact ⟨hb, by assumption⟩
    have hh : ∀ {H' : Heap α} b, H'.Here b → H'.live = upd H.live o false → H'.vec = H.vec → H.Here b := by
      intro H' b hb e1 e2
      exact hb.of (fun c hc => (hsub c (by rw [← e1]; exact hc)).1) (fun w nw hw => ⟨nw, by rw [← e2]; exact hw, rfl, rfl⟩)
    split
    · refine ⟨rfl, ?_⟩
      constructor
      case live =>
        intro b hb
        obtain ⟨h1, h2⟩ := hsub b hb
        show upd L.live (A.addr o) false (A.addr b) = true
        rw [upd_of_ne _ _ (fun e => h2 (r.inj b o (.inl h1) (.inl hl) e))]
        exact r.live b h1
      case onto =>
        intro x hx
        simp only [upd_apply] at hx
        split at hx
        · simp at hx
        · rename_i hne
          obtain ⟨a, h1, h2⟩ := r.onto x hx
          refine ⟨a, ?_, h2⟩
          show upd H.live o false a = true
          rw [upd_of_ne _ _ (fun e => hne (by rw [← h2, e]))]
          exact h1
      case inj => exact fun a b ha hb => r.inj a b (hh a ha rfl rfl) (hh b hb rfl rfl)
      case prev => exact fun a ha => r.prev a (hh a ha rfl rfl)
      case next => exact fun a ha => r.next a (hh a ha rfl rfl)
      case head => exact fun a ha => r.head a (hh a ha rfl rfl)
      case tail => exact fun a ha => r.tail a (hh a ha rfl rfl)
      case up => exact fun a ha => r.up a (hh a ha rfl rfl)
      case size => exact fun a ha => r.size a (hh a ha rfl rfl)
      case data => exact fun a ha => r.data a (hh a ha rfl rfl)
      case count => exact fun a ha => r.write (.inl hl) (g := id) r.count 0 a (hh a ha rfl rfl)
      case borrow => exact fun a ha => r.borrow a (hh a ha rfl rfl)
      case sep => exact fun v nv hv a ha => r.sep v nv hv a (hh a ha rfl rfl)
      case lbnd => exact fun a ha => r.lbnd a (hsub a ha).1
      case vbnd => exact r.vbnd
      case log => simp only [r.log, r.data o (.inl hl), Data.ren_val]
      all_goals first | exact r.vec | exact r.vonto | exact r.vinj | exact r.slots | exact r.known | exact r.nextAddr | exact r.nextVec
    · split
      · exact ARes.ub _ _
      · exact ⟨rfl, { r with count := r.write (.inl hl) (g := id) r.count _ }⟩
  · rw [if_neg hl]; exact ARes.ub _ _

theorem al_decrRef (v : Nat) : ASim A P id (decrRef (A.vec v) : M α _) (decrRef v) := by
  intro L H r
  simp only [decrRef]
  cases hv : H.vec v with
  | none => exact ARes.ub _ _
  | some nv =>
    rw [r.vec v nv hv]
    dsimp only
    have hne : ∀ w nw, H.vec w = some nw → w ≠ v → A.vec w ≠ A.vec v := fun w nw hw e e' => e (r.vinj w v nw nv hw hv e')
    split
    · exact r
    · split
      · have hsub : ∀ b, killRange H.live nv b = true → H.live b = true ∧ ¬ (nv.base ≤ b ∧ b < nv.base + nv.cap) := by
          intro b hb
          simp only [killRange] at hb
          split at hb
          · simp at hb
          · exact ⟨hb, by assumption⟩
        have hvs : ∀ w nw, upd H.vec v none w = some nw → H.vec w = some nw ∧ w ≠ v := by
          intro w nw hw
          simp only [upd_apply] at hw
          split at hw
          · simp at hw
          · exact ⟨hw, by assumption⟩
        have hh : ∀ {H' : Heap α} b, H'.Here b → H'.live = killRange H.live nv → H'.vec = upd H.vec v none → H.Here b := by
          intro H' b hb e1 e2
          exact hb.of (fun c hc => (hsub c (by rw [← e1]; exact hc)).1) (fun w nw hw => ⟨nw, (hvs w nw (by rw [← e2]; exact hw)).1, rfl, rfl⟩)
        refine ⟨rfl, ?_⟩
        constructor
        case live =>
          intro b hb
          obtain ⟨h1, h2⟩ := hsub b hb
          show killRange L.live _ (A.addr b) = true
          simp only [killRange]
          rw [if_neg (fun e => h2 (r.sep v nv hv b (.inl h1) e.1 e.2))]
          exact r.live b h1
        case onto =>
          intro x hx
          simp only [killRange] at hx
          split at hx
          · simp at hx
          · rename_i hne
            obtain ⟨a, h1, h2⟩ := r.onto x hx
            refine ⟨a, ?_, h2⟩
            show killRange H.live nv a = true
            simp only [killRange]
            rw [if_neg]
            · exact h1
            · rintro ⟨g1, g2⟩
              have := r.slots v nv hv (a - nv.base) (by allomega)
              rw [show nv.base + (a - nv.base) = a from by allomega, h2] at this
              exact hne ⟨by allomega, by allomega⟩
        case inj => exact fun a b ha hb => r.inj a b (hh a ha rfl rfl) (hh b hb rfl rfl)
        case prev => exact fun a ha => r.prev a (hh a ha rfl rfl)
        case next => exact fun a ha => r.next a (hh a ha rfl rfl)
        case head => exact fun a ha => r.head a (hh a ha rfl rfl)
        case tail => exact fun a ha => r.tail a (hh a ha rfl rfl)
        case up => exact fun a ha => r.up a (hh a ha rfl rfl)
        case size => exact fun a ha => r.size a (hh a ha rfl rfl)
        case data => exact fun a ha => r.data a (hh a ha rfl rfl)
        case count => exact fun a ha => r.count a (hh a ha rfl rfl)
        case borrow => exact fun a ha => r.borrow a (hh a ha rfl rfl)
        case vec =>
          intro w nw hw
          obtain ⟨h1, h2⟩ := hvs w nw hw
          show upd L.vec (A.vec v) none (A.vec w) = _
          rw [upd_of_ne _ _ (hne w nw h1 h2)]
          exact r.vec w nw h1
        case vonto =>
          intro w nw hw
          simp only [upd_apply] at hw
          split at hw
          · simp at hw
          · rename_i hn
            obtain ⟨u, nu, h1, h2⟩ := r.vonto w nw hw
            refine ⟨u, nu, ?_, h2⟩
            show upd H.vec v none u = some nu
            rw [upd_of_ne _ _ (fun e => hn (by rw [← h2, e]))]
            exact h1
        case vinj => exact fun u w nu nw hu hw => r.vinj u w nu nw (hvs u nu hu).1 (hvs w nw hw).1
        case slots => exact fun w nw hw => r.slots w nw (hvs w nw hw).1
        case sep => exact fun w nw hw a ha => r.sep w nw (hvs w nw hw).1 a (hh a ha rfl rfl)
        case known => exact fun w nw hw => r.known w nw (hvs w nw hw).1
        case lbnd => exact fun a ha => r.lbnd a (hsub a ha).1
        case vbnd => exact fun w nw hw => r.vbnd w nw (hvs w nw hw).1
        all_goals first | exact r.nextAddr | exact r.nextVec | exact r.log
      · have hvs : ∀ w nw, upd H.vec v (some { nv with refCnt := nv.refCnt - 1 }) w = some nw →
            (w = v ∧ nw = { nv with refCnt := nv.refCnt - 1 }) ∨ (H.vec w = some nw ∧ w ≠ v) := by
          intro w nw hw
          simp only [upd_apply] at hw
          split at hw
          · exact .inl ⟨by assumption, (Option.some.inj hw).symm⟩
          · exact .inr ⟨hw, by assumption⟩
        have hvs' : ∀ w nw, upd H.vec v (some { nv with refCnt := nv.refCnt - 1 }) w = some nw →
            ∃ nw', H.vec w = some nw' ∧ nw'.base = nw.base ∧ nw'.cap = nw.cap := by
          intro w nw hw
          rcases hvs w nw hw with ⟨rfl, rfl⟩ | ⟨h1, h2⟩
          · exact ⟨nv, hv, rfl, rfl⟩
          · exact ⟨nw, h1, rfl, rfl⟩
        have hh : ∀ {H' : Heap α} b, H'.Here b → H'.live = H.live → H'.vec = upd H.vec v (some { nv with refCnt := nv.refCnt - 1 }) → H.Here b := by
          intro H' b hb e1 e2
          exact hb.of (fun c hc => by rw [← e1]; exact hc) (fun w nw hw => hvs' w nw (by rw [← e2]; exact hw))
        refine ⟨rfl, { r with
          inj := fun a b ha hb => r.inj a b (hh a ha rfl rfl) (hh b hb rfl rfl)
          prev := fun a ha => r.prev a (hh a ha rfl rfl)
          next := fun a ha => r.next a (hh a ha rfl rfl)
          head := fun a ha => r.head a (hh a ha rfl rfl)
          tail := fun a ha => r.tail a (hh a ha rfl rfl)
          up := fun a ha => r.up a (hh a ha rfl rfl)
          size := fun a ha => r.size a (hh a ha rfl rfl)
          data := fun a ha => r.data a (hh a ha rfl rfl)
          borrow := fun a ha => r.borrow a (hh a ha rfl rfl)
          count := fun a ha => r.count a (hh a ha rfl rfl)
          vec := ?_, vonto := ?_, vinj := ?_, slots := ?_, sep := ?_, known := ?_, vbnd := ?_ }⟩
        · intro w nw hw
          show upd L.vec (A.vec v) _ (A.vec w) = _
          rcases hvs w nw hw with ⟨rfl, rfl⟩ | ⟨h1, h2⟩
          · simp
          · rw [upd_of_ne _ _ (hne w nw h1 h2)]; exact r.vec w nw h1
        · intro w nw hw
          simp only [upd_apply] at hw
          split at hw
          · rename_i e
            exact ⟨v, _, by simp; rfl, e.symm⟩
          · rename_i hn
            obtain ⟨u, nu, h1, h2⟩ := r.vonto w nw hw
            refine ⟨u, nu, ?_, h2⟩
            show upd H.vec v _ u = some nu
            rw [upd_of_ne _ _ (fun e => hn (by rw [← h2, e]))]
            exact h1
        · intro u w nu nw hu hw
          obtain ⟨nu', h1, -, -⟩ := hvs' u nu hu
          obtain ⟨nw', h2, -, -⟩ := hvs' w nw hw
          exact r.vinj u w nu' nw' h1 h2
        · intro w nw hw
          obtain ⟨nw', h2, e1, e2⟩ := hvs' w nw hw
          rw [← e1, ← e2]; exact r.slots w nw' h2
        · intro w nw hw
          obtain ⟨nw', h2, e1, e2⟩ := hvs' w nw hw
          rw [← e1, ← e2]; exact fun a ha => r.sep w nw' h2 a (hh a ha rfl rfl)
        · intro w nw hw
          obtain ⟨nw', h2, e1, e2⟩ := hvs' w nw hw
          exact r.known w nw' h2
        · intro w nw hw
          obtain ⟨nw', h2, e1, e2⟩ := hvs' w nw hw
          rw [← e1, ← e2]; exact r.vbnd w nw' h2

theorem al_vecNode (v i : Nat) : ASim A P A.addr (vecNode (A.vec v) i : M α _) (vecNode v i) := by
  intro L H r
  simp only [vecNode]
  cases hv : H.vec v with
  | none => exact ARes.ub _ _
  | some nv =>
    rw [r.vec v nv hv]
    dsimp only
    split
    · rename_i hi
      exact ⟨(r.slots v nv hv i hi).symm, r⟩
    · exact ARes.ub _ _

/-- Memory that is not in use is not the place of anything. -/
theorem ARel.free {L H : Heap α} (r : ARel A L H) {x : Addr} (hx : inUse A L x = false) :
    (∀ a, H.Here a → A.addr a ≠ x) ∧
    ∀ v nv, H.vec v = some nv → A.addr nv.base ≤ x → x < A.addr nv.base + nv.cap → False := by
  simp only [inUse, Bool.or_eq_false_iff] at hx
  obtain ⟨h1, h2⟩ := hx
  have key : ∀ v nv, H.vec v = some nv → A.addr nv.base ≤ x → x < A.addr nv.base + nv.cap → False := by
    intro v nv hv g1 g2
    have hk := r.known v nv hv
    rw [← r.nextVec] at hk
    rw [List.any_eq_false] at h2
    have := h2 v (List.mem_range.mpr hk)
    rw [r.vec v nv hv] at this
    simp only [Bool.and_eq_true, decide_eq_true_eq, not_and] at this
    exact this g1 g2
  refine ⟨?_, key⟩
  rintro a (ha | ⟨v, nv, hv, g1, g2⟩) e
  · have := r.live a ha
    rw [e, h1] at this
    simp at this
  · have := r.slots v nv hv (a - nv.base) (by allomega)
    rw [show nv.base + (a - nv.base) = a from by allomega] at this
    exact key v nv hv (by allomega) (by allomega)

/-- A bump allocator always has room. -/
theorem ARel.bump {L H : Heap α} (r : ARel A L H) (hB : A.Bump) {n : Nat} (hn : H.nextAddr ≤ n) : ¬ inUse A L (A.addr n) = true := by
  intro h
  have hadd := hB.addr
  simp only [inUse, Bool.or_eq_true, List.any_eq_true, List.mem_range] at h
  rcases h with h | ⟨v, hv, h⟩
  · obtain ⟨a, h1, h2⟩ := r.onto _ h
    have := r.lbnd a h1
    rw [hadd a, hadd n] at h2
    allomega
  · cases hw : L.vec (A.vec v) with
    | none => simp [hw] at h
    | some nw =>
      simp only [hw, Bool.and_eq_true, decide_eq_true_eq] at h
      obtain ⟨u, nu, h1, h2⟩ := r.vonto _ nw hw
      have h3 := r.vec u nu h1
      rw [h2, hw] at h3
      obtain rfl := Option.some.inj h3
      have := r.vbnd u nu h1
      obtain ⟨g1, g2⟩ := h
      dsimp only at g1 g2
      rw [hadd nu.base, hadd n] at g2
      allomega

theorem al_makeNode {d : Data α} {d' : Data α} (h : ∀ n, d.setOwner (A.addr n) = (d'.setOwner n).ren A) :
    ASim A (¬ A.Bump) A.addr (makeNodeA A d) (makeNode d') := by
  intro L H r
  simp only [makeNodeA, makeNode]
  rw [r.nextAddr]
  by_cases hok : A.okNode L = true
  · rw [if_pos hok]
    simp only [Alloc.okNode, Bool.not_eq_true'] at hok
    rw [r.nextAddr] at hok
    obtain ⟨f1, f2⟩ := r.free hok
    refine ⟨rfl, ?_⟩
    have hcase : ∀ a, upd H.live H.nextAddr true a = true → a = H.nextAddr ∨ (a ≠ H.nextAddr ∧ H.live a = true) := by
      intro a ha
      by_cases e : a = H.nextAddr
      · exact .inl e
      · rw [upd_of_ne _ _ e] at ha; exact .inr ⟨e, ha⟩
    have hcaseH : ∀ {H' : Heap α} a, H'.Here a → H'.live = upd H.live H.nextAddr true → H'.vec = H.vec → a = H.nextAddr ∨ (a ≠ H.nextAddr ∧ H.Here a) := by
      rintro H' a (ha | ⟨v, nv, h1, h2, h3⟩) e1 e2
      · rw [e1] at ha
        exact (hcase a ha).imp id fun g => ⟨g.1, .inl g.2⟩
      · rw [e2] at h1
        have := r.vbnd v nv h1
        exact .inr ⟨fun e => by allomega, .inr ⟨v, nv, h1, h2, h3⟩⟩
    have field : ∀ {γ δ : Type} {u : Addr → γ} {u' : Addr → δ} {g : δ → γ} (x : γ) (x' : δ), x = g x' →
        (∀ b, H.Here b → u (A.addr b) = g (u' b)) →
        ∀ {H' : Heap α} b, H'.Here b → H'.live = upd H.live H.nextAddr true → H'.vec = H.vec → upd u (A.addr H.nextAddr) x (A.addr b) = g (upd u' H.nextAddr x' b) := by
      intro γ δ u u' g x x' hx hu H' b hb e1 e2
      rcases hcaseH b hb e1 e2 with rfl | ⟨e, hb⟩
      · simp [hx]
      · rw [upd_of_ne _ _ e, upd_of_ne _ _ (f1 b hb)]; exact hu b hb
    constructor
    case live =>
      intro a ha
      show upd L.live _ true _ = true
      rcases hcase a ha with rfl | ⟨e, hb⟩
      · simp
      · rw [upd_of_ne _ _ (f1 a (.inl hb))]; exact r.live a hb
    case onto =>
      intro x hx
      simp only [upd_apply] at hx
      split at hx
      · rename_i e; exact ⟨H.nextAddr, by simp, e.symm⟩
      · obtain ⟨a, h1, h2⟩ := r.onto x hx
        refine ⟨a, ?_, h2⟩
        show upd H.live _ true a = true
        simp only [upd_apply]
        split
        · rfl
        · exact h1
    case inj =>
      intro a b ha hb e
      rcases hcaseH a ha rfl rfl with rfl | ⟨-, ha⟩ <;> rcases hcaseH b hb rfl rfl with rfl | ⟨-, hb⟩
      · rfl
      · exact absurd e.symm (f1 b hb)
      · exact absurd e (f1 a ha)
      · exact r.inj a b ha hb e
    case prev => exact fun b hb => field (g := Option.map A.addr) none none rfl r.prev b hb rfl rfl
    case next => exact fun b hb => field (g := Option.map A.addr) none none rfl r.next b hb rfl rfl
    case head => exact fun b hb => field (g := Option.map A.addr) none none rfl r.head b hb rfl rfl
    case tail => exact fun b hb => field (g := Option.map A.addr) none none rfl r.tail b hb rfl rfl
    case up => exact fun b hb => field (g := Option.map A.addr) none none rfl r.up b hb rfl rfl
    case size => exact fun b hb => field (g := id) _ _ rfl r.size b hb rfl rfl
    case data => exact fun b hb => field (g := Data.ren A) _ _ (h _) r.data b hb rfl rfl
    case count => exact fun b hb => field (g := id) _ _ rfl r.count b hb rfl rfl
    case borrow => exact fun b hb => field (g := id) _ _ rfl r.borrow b hb rfl rfl
    case sep =>
      intro v nv hv a ha g1 g2
      rcases hcaseH a ha rfl rfl with rfl | ⟨-, ha⟩
      · exact (f2 v nv hv g1 g2).elim
      · exact r.sep v nv hv a ha g1 g2
    case lbnd =>
      intro a ha
      show a < H.nextAddr + 1
      rcases hcase a ha with rfl | ⟨-, ha⟩
      · exact Nat.lt_succ_self _
      · exact Nat.lt_succ_of_lt (r.lbnd a ha)
    case vbnd => exact fun v nv hv => Nat.le_succ_of_le (r.vbnd v nv hv)
    case nextAddr => simp only [r.nextAddr]
    all_goals first | exact r.vec | exact r.vonto | exact r.vinj | exact r.slots | exact r.known | exact r.nextVec | exact r.log
  · rw [if_neg hok]
    intro hB
    simp only [Alloc.okNode, Bool.not_eq_true', Bool.not_eq_false] at hok
    rw [r.nextAddr] at hok
    exact r.bump hB (Nat.le_refl _) hok

theorem al_newVec (cap : Nat) : ASim A (¬ A.Bump) A.vec (newVecA A cap : M α _) (newVec cap) := by
  intro L H r
  simp only [newVecA, newVec]
  by_cases hok : A.okBlock L cap = true
  · rw [if_pos hok]
    simp only [Alloc.okBlock, Bool.and_eq_true, List.all_eq_true, List.mem_range, decide_eq_true_eq, Bool.not_eq_true',
      Option.isNone_iff_eq_none] at hok
    rw [r.nextAddr, r.nextVec] at hok
    obtain ⟨hv0, hc⟩ := hok
    have hcont : ∀ i, i < cap → A.addr (H.nextAddr + i) = A.addr H.nextAddr + i := fun i hi => (hc i hi).1
    have hfree := fun i (hi : i < cap) => r.free (hc i hi).2
    have f1 : ∀ a, H.Here a → ¬ (A.addr H.nextAddr ≤ A.addr a ∧ A.addr a < A.addr H.nextAddr + cap) := by
      rintro a ha ⟨g1, g2⟩
      exact (hfree (A.addr a - A.addr H.nextAddr) (by allomega)).1 a ha (by allomega)
    have f3 : ∀ a, H.nextAddr ≤ a ∧ a < H.nextAddr + cap → A.addr a = A.addr H.nextAddr + (a - H.nextAddr) := by
      rintro a ⟨g1, g2⟩
      have := hcont (a - H.nextAddr) (by allomega)
      rwa [show H.nextAddr + (a - H.nextAddr) = a from by allomega] at this
    have f4 : ∀ a, H.nextAddr ≤ a ∧ a < H.nextAddr + cap → A.addr H.nextAddr ≤ A.addr a ∧ A.addr a < A.addr H.nextAddr + cap := by
      rintro a ⟨g1, g2⟩
      have := f3 a ⟨g1, g2⟩
      allomega
    have hnw : ∀ w nw, H.vec w = some nw → A.vec w ≠ A.vec H.nextVec := by
      intro w nw hw e
      have := r.vec w nw hw
      rw [e, hv0] at this
      simp at this
    refine ⟨by rw [r.nextVec], ?_⟩
    rw [r.nextAddr, r.nextVec]
    have hcase : ∀ a, (if H.nextAddr ≤ a ∧ a < H.nextAddr + cap then true else H.live a) = true →
        (H.nextAddr ≤ a ∧ a < H.nextAddr + cap) ∨ (¬ (H.nextAddr ≤ a ∧ a < H.nextAddr + cap) ∧ H.live a = true) := by
      intro a ha
      by_cases e : H.nextAddr ≤ a ∧ a < H.nextAddr + cap
      · exact .inl e
      · rw [if_neg e] at ha; exact .inr ⟨e, ha⟩
    have hcaseH : ∀ {H' : Heap α} a, H'.Here a → H'.live = (fun a => if H.nextAddr ≤ a ∧ a < H.nextAddr + cap then true else H.live a) →
        H'.vec = upd H.vec H.nextVec (some ⟨H.nextAddr, cap, cap⟩) →
        (H.nextAddr ≤ a ∧ a < H.nextAddr + cap) ∨ (¬ (H.nextAddr ≤ a ∧ a < H.nextAddr + cap) ∧ H.Here a) := by
      rintro H' a (ha | ⟨v, nv, h1, h2, h3⟩) e1 e2
      · rw [e1] at ha
        exact (hcase a ha).imp id fun g => ⟨g.1, .inl g.2⟩
      · rw [e2] at h1
        simp only [upd_apply] at h1
        split at h1
        · cases h1; exact .inl ⟨h2, h3⟩
        · have := r.vbnd v nv h1
          exact .inr ⟨fun e => by allomega, .inr ⟨v, nv, h1, h2, h3⟩⟩
    have field : ∀ {γ δ : Type} {u : Addr → γ} {u' : Addr → δ} {g : δ → γ} (x : γ) (x' : δ), x = g x' →
        (∀ b, H.Here b → u (A.addr b) = g (u' b)) →
        ∀ {H' : Heap α} b, H'.Here b → H'.live = (fun a => if H.nextAddr ≤ a ∧ a < H.nextAddr + cap then true else H.live a) →
          H'.vec = upd H.vec H.nextVec (some ⟨H.nextAddr, cap, cap⟩) →
          (if A.addr H.nextAddr ≤ A.addr b ∧ A.addr b < A.addr H.nextAddr + cap then x else u (A.addr b)) =
            g (if H.nextAddr ≤ b ∧ b < H.nextAddr + cap then x' else u' b) := by
      intro γ δ u u' g x x' hx hu H' b hb e1 e2
      rcases hcaseH b hb e1 e2 with e | ⟨e, hb⟩
      · rw [if_pos e, if_pos (f4 b e)]; exact hx
      · rw [if_neg e, if_neg (f1 b hb)]; exact hu b hb
    have hvs : ∀ w nw, upd H.vec H.nextVec (some ⟨H.nextAddr, cap, cap⟩) w = some nw →
        (w = H.nextVec ∧ nw = ⟨H.nextAddr, cap, cap⟩) ∨ (H.vec w = some nw ∧ w ≠ H.nextVec) := by
      intro w nw hw
      simp only [upd_apply] at hw
      split at hw
      · exact .inl ⟨by assumption, (Option.some.inj hw).symm⟩
      · exact .inr ⟨hw, by assumption⟩
    constructor
    case live =>
      intro a ha
      show (if _ then true else L.live _) = true
      rcases hcase a ha with e | ⟨e, hb⟩
      · rw [if_pos (f4 a e)]
      · rw [if_neg (f1 a (.inl hb))]; exact r.live a hb
    case onto =>
      intro x hx
      dsimp only at hx
      split at hx
      · rename_i e
        have e1 := f3 (H.nextAddr + (x - A.addr H.nextAddr)) ⟨by allomega, by allomega⟩
        exact ⟨H.nextAddr + (x - A.addr H.nextAddr), if_pos ⟨by allomega, by allomega⟩, by allomega⟩
      · obtain ⟨a, h1, h2⟩ := r.onto x hx
        refine ⟨a, ?_, h2⟩
        show (if _ then true else H.live _) = true
        split
        · rfl
        · exact h1
    case inj =>
      intro a b ha hb e
      rcases hcaseH a ha rfl rfl with h1 | ⟨-, h1⟩ <;> rcases hcaseH b hb rfl rfl with h2 | ⟨-, h2⟩
      · have e1 := f3 a h1
        have e2 := f3 b h2
        have : (a : Nat) - H.nextAddr = b - H.nextAddr := by allomega
        have h1' : H.nextAddr ≤ (a : Nat) := h1.1
        have h2' : H.nextAddr ≤ (b : Nat) := h2.1
        have : (a : Nat) = b := by allomega
        exact this
      · exact absurd (e ▸ f4 a h1) (f1 b h2)
      · exact absurd (e ▸ f4 b h2) (f1 a h1)
      · exact r.inj a b h1 h2 e
    case prev => exact fun b hb => field (g := Option.map A.addr) none none rfl r.prev b hb rfl rfl
    case next => exact fun b hb => field (g := Option.map A.addr) none none rfl r.next b hb rfl rfl
    case head => exact fun b hb => field (g := Option.map A.addr) none none rfl r.head b hb rfl rfl
    case tail => exact fun b hb => field (g := Option.map A.addr) none none rfl r.tail b hb rfl rfl
    case up => exact fun b hb => field (g := Option.map A.addr) none none rfl r.up b hb rfl rfl
    case size => exact fun b hb => field (g := id) _ _ rfl r.size b hb rfl rfl
    case data => exact fun b hb => field (g := Data.ren A) Data.none Data.none rfl r.data b hb rfl rfl
    case count => exact fun b hb => field (g := id) _ _ rfl r.count b hb rfl rfl
    case borrow => exact fun b hb => field (g := id) _ _ rfl r.borrow b hb rfl rfl
    case vec =>
      intro w nw hw
      show upd L.vec _ _ _ = _
      rcases hvs w nw hw with ⟨rfl, rfl⟩ | ⟨h1, h2⟩
      · simp
      · rw [upd_of_ne _ _ (hnw w nw h1)]; exact r.vec w nw h1
    case vonto =>
      intro w nw hw
      simp only [upd_apply] at hw
      split at hw
      · rename_i e; exact ⟨H.nextVec, ⟨H.nextAddr, cap, cap⟩, by simp, e.symm⟩
      · obtain ⟨u, nu, h1, h2⟩ := r.vonto w nw hw
        refine ⟨u, nu, ?_, h2⟩
        show upd H.vec _ _ u = some nu
        rw [upd_of_ne _ _ ?_]
        · exact h1
        · intro e
          exact hnw u nu h1 (by rw [e])
    case vinj =>
      intro u w nu nw hu hw e
      rcases hvs u nu hu with ⟨rfl, rfl⟩ | ⟨h1, h2⟩ <;> rcases hvs w nw hw with ⟨rfl, rfl⟩ | ⟨h3, h4⟩
      · rfl
      · exact absurd e.symm (hnw w nw h3)
      · exact absurd e (hnw u nu h1)
      · exact r.vinj u w nu nw h1 h3 e
    case slots =>
      intro w nw hw
      rcases hvs w nw hw with ⟨rfl, rfl⟩ | ⟨h1, h2⟩
      · exact hcont
      · exact r.slots w nw h1
    case sep =>
      intro w nw hw a ha g1 g2
      rcases hvs w nw hw with ⟨rfl, rfl⟩ | ⟨h1, h2⟩
      · rcases hcaseH a ha rfl rfl with e | ⟨e, hb⟩
        · exact e
        · exact absurd ⟨g1, g2⟩ (f1 a hb)
      · rcases hcaseH a ha rfl rfl with e | ⟨e, hb⟩
        · have e1 := f3 a e
          have hi : (a : Nat) - H.nextAddr < cap := by allomega
          exact ((hfree (a - H.nextAddr) hi).2 w nw h1 (by rw [← e1]; exact g1) (by rw [← e1]; exact g2)).elim
        · exact r.sep w nw h1 a hb g1 g2
    case known =>
      intro w nw hw
      show w < H.nextVec + 1
      rcases hvs w nw hw with ⟨rfl, rfl⟩ | ⟨h1, h2⟩
      · allomega
      · have := r.known w nw h1; allomega
    case lbnd =>
      intro a ha
      show a < H.nextAddr + cap
      rcases hcase a ha with e | ⟨e, hb⟩
      · exact e.2
      · exact Nat.lt_of_lt_of_le (r.lbnd a hb) (Nat.le_add_right _ _)
    case vbnd =>
      intro w nw hw
      show nw.base + nw.cap ≤ H.nextAddr + cap
      rcases hvs w nw hw with ⟨rfl, rfl⟩ | ⟨h1, h2⟩
      · exact Nat.le_refl _
      · exact Nat.le_trans (r.vbnd w nw h1) (Nat.le_add_right _ _)
    all_goals first | rfl | exact r.log
  · rw [if_neg hok]
    intro hB
    apply hok
    simp only [Alloc.okBlock, Bool.and_eq_true, List.all_eq_true, List.mem_range, decide_eq_true_eq, Bool.not_eq_true',
      Option.isNone_iff_eq_none]
    rw [r.nextAddr, r.nextVec]
    have hadd := hB.addr
    refine ⟨?_, fun i hi => ?_⟩
    · cases hw : L.vec (A.vec H.nextVec) with
      | none => rfl
      | some nw =>
        obtain ⟨u, nu, h1, h2⟩ := r.vonto _ nw hw
        have := r.known u nu h1
        have := hB.vec _ _ h2
        allomega
    · have e : A.addr (H.nextAddr + i) = A.addr H.nextAddr + i := by
        rw [hadd (H.nextAddr + i), hadd H.nextAddr]; allomega
      refine ⟨e, ?_⟩
      rw [← e]
      exact Bool.eq_false_iff.mpr (r.bump hB (Nat.le_add_right _ _))

end Trees
