import Verif.Proof.OwnSource
/-
Breadth-first iteration with mutable references.
-/
namespace Trees
set_option linter.unusedSimpArgs false
variable {α : Type}
open RTree

/-- Only data values differ. -/
structure DM (h h' : Heap α) : Prop where
  inv : ∀ {K}, Inv h K → Inv h' K
  st : SInv h → SInv h'
  used : ∀ x, h'.Used x ↔ h.Used x
  live : h'.live = h.live
  prev : h'.prev = h.prev
  next : h'.next = h.next
  up : h'.up = h.up
  log : h'.log = h.log
  some : ∀ b, (h'.val b).isSome = (h.val b).isSome

theorem DM.refl (h : Heap α) : DM h h := ⟨id, id, fun _ => Iff.rfl, rfl, rfl, rfl, rfl, rfl, fun _ => rfl⟩

theorem DM.trans {h h1 h2 : Heap α} (a : DM h h1) (b : DM h1 h2) : DM h h2 :=
  ⟨fun x => b.inv (a.inv x), fun x => b.st (a.st x), fun x => (b.used x).trans (a.used x), b.live.trans a.live,
    b.prev.trans a.prev, b.next.trans a.next, b.up.trans a.up, b.log.trans a.log, fun x => (b.some x).trans (a.some x)⟩

theorem modifyData_ok {h : Heap α} {K : Addr → List Addr} (hI : Inv h K) (hS : SInv h) {a : Addr}
    (ha : h.Used a) {d : α} (hv : h.val a = some d) (g : α → α) :
    ∃ h', modifyData a g h = .ok () h' ∧ DM h h' ∧ h'.val = upd h.val a (some (g d)) := by
  have hl := ha.1
  have hv0 := hv
  unfold Heap.val at hv
  have key : ∀ d', SameOwner (h.data a) d' → d'.val? = some (g d) →
      DM h { h with data := upd h.data a d' } ∧ ({ h with data := upd h.data a d' } : Heap α).val = upd h.val a (some (g d)) := by
    intro d' hs hd'
    have e : ({ h with data := upd h.data a d' } : Heap α) = { h with data := upd h.data a d', log := h.log ++ [] } := by simp
    have hval : ({ h with data := upd h.data a d' } : Heap α).val = upd h.val a (some (g d)) := by
      funext x; simp only [Heap.val, upd_apply]; split <;> simp [hd']
    refine ⟨⟨?_, ?_, ?_, rfl, rfl, rfl, rfl, rfl, ?_⟩, hval⟩
    · intro K' hI'
      rw [e]; exact (setData_inv hI' hS ha hs []).1
    · intro hS'
      rw [e]; exact (setData_inv hI hS' ha hs []).2.1
    · rw [e]; exact (setData_inv hI hS ha hs []).2.2
    · intro b
      rw [hval]; simp only [upd_apply]; split
      · rename_i e; subst e; simp [hv0]
      · rfl
  cases hd : h.data a with
  | none => simp [hd, Data.val?] at hv
  | scatteredNone o => simp [hd, Data.val?] at hv
  | piledNone o => simp [hd, Data.val?] at hv
  | scattered d' o =>
    simp [hd, Data.val?] at hv; subst hv
    obtain ⟨g1, g2⟩ := key (.scattered (g d') o) (by rw [hd]; rfl) rfl
    exact ⟨_, by simp [modifyData, hl, hd], g1, g2⟩
  | piled d' o =>
    simp [hd, Data.val?] at hv; subst hv
    obtain ⟨g1, g2⟩ := key (.piled (g d') o) (by rw [hd]; rfl) rfl
    exact ⟨_, by simp [modifyData, hl, hd], g1, g2⟩

/-- An iterator over nodes; the trees are labelled with addresses. -/
def MutI (K : Addr → List Addr) (h : Heap α) (s : List RawIter) (tss : List (List (RTree Addr))) : Prop :=
  (Inv h K ∧ SInv h ∧ (∀ a c, c ∈ K a → h.IsVal c)) ∧
    List.Forall₂ (fun it ts => ItAt (fun a => some a) h K it ts ∧ ∀ t ∈ ts, h.IsVal t.data) s tss

theorem MutI.dm {K : Addr → List Addr} {h h' : Heap α} {s tss} (H : MutI K h s tss) (D : DM h h') : MutI K h' s tss := by
  obtain ⟨⟨h1, h2, h3⟩, h4⟩ := H
  have hv : ∀ b, h'.IsVal b ↔ h.IsVal b := by
    intro b
    have := D.some b
    simp only [Heap.val] at this
    simp [Heap.IsVal, this]
  refine ⟨⟨D.inv h1, D.st h2, fun a c hc => (hv c).mpr (h3 a c hc)⟩, h4.imp ?_⟩
  rintro it ts ⟨⟨cs, ⟨a1, a2, a3, l, r, a4⟩, g2, g3⟩, g4⟩
  refine ⟨⟨cs, ⟨a1, a2, ?_, l, r, ?_⟩, fun c hc => (D.used c).mpr (g2 c hc), g3⟩, fun t ht => (hv _).mpr (g4 t ht)⟩
  · rw [D.live]; exact a3
  · rw [D.prev, D.next]; exact a4

theorem DenL.data_mem {K : Addr → List Addr} {cs : List Addr} {ts : List (RTree Addr)} (h : DenL (fun a => some a) K cs ts) :
    ts.map data = cs := by
  induction cs generalizing ts with
  | nil => have : ts = [] := by simpa using h
           subst this; rfl
  | cons c cs ih =>
    cases ts with
    | nil => simp at h
    | cons t ts =>
      rw [DenL_cons] at h
      cases t with
      | node d ks =>
        rw [Den_node] at h
        simp only [List.map_cons, data_node, ih h.2, List.cons.injEq, and_true]
        exact (Option.some.inj h.1.1).symm

theorem mutSpec (K : Addr → List Addr) : SrcSpec (mutSrc : Src α _ _ _) (MutI K) := by
  refine ⟨?_, ?_, ?_⟩
  · rintro h s tss ⟨-, H⟩; exact H.length_eq
  · rintro h it rest tss ⟨MI, H⟩
    cases H with
    | cons h1 h2 =>
      obtain ⟨⟨cs, a, -, d⟩, -⟩ := h1
      have : cs = [] := by simpa using d
      subst this
      exact ⟨it, h, h, a.next_nil, rfl, MI, h2⟩
  · rintro h it rest t us tss ⟨MI, H⟩
    cases H with
    | cons h1 h2 =>
      obtain ⟨⟨cs, a, hU, d⟩, hv⟩ := h1
      cases cs with
      | nil => simp at d
      | cons c cs =>
        rw [DenL_cons] at d
        obtain ⟨it', e1, a'⟩ := a.next_cons
        have hc := hU c (by simp)
        cases t with
        | node dd ks =>
          have d1 := d.1
          rw [Den_node] at d1
          have hdd : c = dd := Option.some.inj d1.1
          subst hdd
          obtain ⟨ch, e2, hch, hlen⟩ := iter_den MI.1 hc d1.2
          have hsz := MI.1.sz_den hc d1.2
          obtain ⟨x, hx⟩ := Heap.isVal_iff.mp (hv _ (List.mem_cons_self ..))
          have e3 : dataRef c h = .ok x h := dataRef_ok hc.1 hx
          refine ⟨c, it', ch, h, h, e1, ?_, ?_, MI, ?_⟩
          · simp only [mutSrc, M.bind_apply, e3, Res.bind_ok, e2, getSize_ok hc.1, hsz, M.pure_apply]
            rfl
          · simp [mutSrc, hlen]
          · refine List.rel_append (.cons ⟨⟨cs, a', fun x hx => hU x (by simp [hx]), d.2⟩, fun t ht => hv t (by simp [ht])⟩ h2)
              (.cons ⟨hch, ?_⟩ .nil)
            intro t ht
            have : t.data ∈ K c := by
              rw [← d1.2.data_mem]; exact List.mem_map.mpr ⟨t, ht, rfl⟩
            exact MI.2.2 c _ this

/-- The value of address `b` after the first `k` visits of `L`, the `j`-th of which applies `f (i+j)`. -/
def mutVal (v : Addr → Option α) (L : List Addr) (f : Nat → α → α) (k i : Nat) (b : Addr) : Option α :=
  if b ∈ L.take k then (v b).map (f (i + L.idxOf b)) else v b

theorem driveMut_ok {K : Addr → List Addr} (f : Nat → α → α) : ∀ (k i : Nat) (s : List RawIter) (h : Heap α) tss ts,
    MutI K h s tss → tss.flatten = ts → ((qbfs ts).map data).Nodup →
    ∃ h', driveMut f k i s h = .ok ((List.range k).map (fun j => (visits ts)[j]?.bind (fun v => (h.val v.1).map (fun d => (d, v.2))))) h' ∧
      DM h h' ∧ ∀ b, h'.val b = mutVal h.val ((qbfs ts).map data) f k i b := by
  intro k
  induction k with
  | zero => intro i s h tss ts _ _ _; exact ⟨h, rfl, .refl h, fun b => by simp [mutVal]⟩
  | succ k ih =>
    intro i s h tss ts H hf nd
    cases ts with
    | nil =>
      obtain ⟨h1, e1, H1⟩ := (mutSpec K).next_nil s h tss H hf
      -- the iterators are exhausted: nothing changes
      have hh : h1 = h := by
        have : ∀ (s : List RawIter) (h : Heap α) tss h1, MutI K h s tss → tss.flatten = [] → splittedNext mutSrc s h = .ok (none, []) h1 → h1 = h := by
          intro s
          induction s with
          | nil =>
            intro h tss h1 _ _ e
            simp only [splittedNext, M.pure_apply, Res.ok.injEq] at e
            exact e.2.symm
          | cons it rest ih2 =>
            intro h tss h1 H hf e
            cases tss with
            | nil => have := (mutSpec K).len _ _ _ H; simp at this
            | cons us tss =>
              simp only [List.flatten_cons, List.append_eq_nil_iff] at hf
              obtain ⟨rfl, hf⟩ := hf
              obtain ⟨MI, H⟩ := H
              cases H with
              | cons g1 g2 =>
                obtain ⟨⟨cs, a, -, d⟩, -⟩ := g1
                have : cs = [] := by simpa using d
                subst this
                have e' : (mutSrc : Src α _ _ _).next it h = .ok (none, it) h := a.next_nil
                have e'' : (mutSrc : Src α _ _ _).drop it h = .ok () h := rfl
                simp only [splittedNext, M.bind_apply, e', Res.bind_ok, e''] at e
                exact ih2 h tss h1 ⟨MI, g2⟩ hf e
        exact this s h tss h1 H hf e1
      subst hh
      obtain ⟨h2, e2, D2, hv2⟩ := ih (i + 1) [] h1 [] [] H1 rfl (by simp)
      refine ⟨h2, ?_, D2, ?_⟩
      · simp only [driveMut, M.bind_apply, e1, Res.bind_ok, e2, M.pure_apply]
        simp [visits_nil, List.range_succ_eq_map, Function.comp_def]
      · intro b; rw [hv2]; simp [mutVal]
    | cons t r =>
      obtain ⟨h1, s1, tss1, e1, H1, hf1⟩ := (mutSpec K).next_cons s h tss t r H hf
      have hh : h1 = h ∧ h.Used t.data ∧ h.IsVal t.data := by
        have : ∀ (s : List RawIter) (h : Heap α) tss h1 s1, MutI K h s tss → tss.flatten = t :: r →
            splittedNext mutSrc s h = .ok (some (t.data, szOf t), s1) h1 → h1 = h ∧ h.Used t.data ∧ h.IsVal t.data := by
          intro s
          induction s with
          | nil =>
            intro h tss h1 s1 H hf e
            simp [splittedNext] at e
          | cons it rest ih2 =>
            intro h tss h1 s1 H hf e
            cases tss with
            | nil => have := (mutSpec K).len _ _ _ H; simp at this
            | cons us tss =>
              cases us with
              | nil =>
                simp only [List.flatten_cons, List.nil_append] at hf
                obtain ⟨MI, H⟩ := H
                cases H with
                | cons g1 g2 =>
                  obtain ⟨⟨cs, a, -, d⟩, -⟩ := g1
                  have : cs = [] := by simpa using d
                  subst this
                  have e' : (mutSrc : Src α _ _ _).next it h = .ok (none, it) h := a.next_nil
                  have e'' : (mutSrc : Src α _ _ _).drop it h = .ok () h := rfl
                  simp only [splittedNext, M.bind_apply, e', Res.bind_ok, e''] at e
                  exact ih2 h tss h1 s1 ⟨MI, g2⟩ hf e
              | cons u us =>
                simp only [List.flatten_cons, List.cons_append, List.cons.injEq] at hf
                obtain ⟨rfl, -⟩ := hf
                obtain ⟨MI, H⟩ := H
                cases H with
                | cons g1 g2 =>
                  obtain ⟨⟨cs, a, hU, d⟩, hv⟩ := g1
                  cases cs with
                  | nil => simp at d
                  | cons c cs =>
                    rw [DenL_cons] at d
                    obtain ⟨it', e3, a'⟩ := a.next_cons
                    have hc := hU c (by simp)
                    cases u with
                    | node dd ks =>
                      have d1 := d.1
                      rw [Den_node] at d1
                      have hdd : c = dd := Option.some.inj d1.1
                      subst hdd
                      obtain ⟨ch, e2, hch, hlen⟩ := iter_den MI.1 hc d1.2
                      obtain ⟨x, hx⟩ := Heap.isVal_iff.mp (hv _ (List.mem_cons_self ..))
                      have e4 : dataRef c h = .ok x h := dataRef_ok hc.1 hx
                      have e5 : (mutSrc : Src α _ _ _).next it h = .ok (some c, it') h := e3
                      simp only [splittedNext, M.bind_apply, e5, Res.bind_ok] at e
                      simp only [mutSrc, M.bind_apply, e4, Res.bind_ok, e2, getSize_ok hc.1, M.pure_apply, Res.ok.injEq] at e
                      exact ⟨e.2.symm, hc, hv _ (List.mem_cons_self ..)⟩
        exact this s h tss h1 s1 H hf e1
      obtain ⟨rfl, hU, hV⟩ := hh
      obtain ⟨d, hd⟩ := Heap.isVal_iff.mp hV
      obtain ⟨h2, e2, D2, hv2⟩ := modifyData_ok H.1.1 H.1.2.1 hU hd (f i)
      rw [qbfs_cons, List.map_cons, List.nodup_cons] at nd
      obtain ⟨h3, e3, D3, hv3⟩ := ih (i + 1) s1 h2 tss1 _ (H1.dm D2) hf1 nd.2
      refine ⟨h3, ?_, D2.trans D3, ?_⟩
      · simp only [driveMut, M.bind_apply, e1, Res.bind_ok, dataRef_ok hU.1 hd, e2, e3, M.pure_apply]
        simp only [visits_cons, List.range_succ_eq_map, List.map_cons, List.map_map, Function.comp_def, List.getElem?_cons_zero,
          Option.bind_some, hd, Option.map_some, List.getElem?_cons_succ, Nat.succ_eq_add_one]
        congr 2
        apply List.map_congr_left
        intro j _
        cases hj : (visits (r ++ t.kids))[j]? with
        | none => rfl
        | some v =>
          simp only [Option.bind_some]
          rw [hv2, upd_of_ne]
          rintro e
          refine nd.1 ?_
          rw [← e]
          have := List.mem_of_getElem? hj
          simp only [visits, List.mem_map] at this ⊢
          obtain ⟨x, hx, rfl⟩ := this
          exact ⟨x, hx, rfl⟩
      · intro b
        rw [hv3, qbfs_cons, List.map_cons]
        generalize hL : (qbfs (r ++ t.kids)).map data = L at *
        simp only [mutVal, List.take_succ_cons, List.mem_cons]
        by_cases hb : b = t.data
        · subst hb
          have : t.data ∉ L.take k := fun h => nd.1 (List.mem_of_mem_take h)
          simp [this, hv2, hd, List.idxOf_cons]
        · have hb' : t.data ≠ b := fun e => hb e.symm
          simp only [hb, false_or]
          split
          · rw [hv2, upd_of_ne _ _ hb, List.idxOf_cons_ne _ hb']
            congr 2
            omega
          · rw [hv2, upd_of_ne _ _ hb]

theorem mutVal_den {K : Addr → List Addr} {v : Addr → Option α} {cs : List Addr} {As : List (RTree Addr)} {ts us : List (RTree α)}
    {f : Nat → α → α} {k : Nat} (dA : DenL (fun a => some a) K cs As) (d1 : DenL v K cs ts) (nd : ((qbfs As).map data).Nodup)
    (d2 : DenL (mutVal v ((qbfs As).map data) f k 0) K cs us) :
    visits us = (visits ts).mapIdx (fun i x => (first k f i x.1, x.2)) ∧
      (List.range k).map (fun j => (visits As)[j]?.bind (fun x => (v x.1).map (fun d => (d, x.2)))) =
        (List.range k).map (fun j => (visits ts)[j]?) := by
  obtain ⟨as1, a1, a2, a3⟩ := qbfs_den _ cs As ts (Nat.le_refl _) dA d1
  obtain ⟨as2, b1, b2, b3⟩ := qbfs_den _ cs As us (Nat.le_refl _) dA d2
  have eqA : ∀ as : List Addr, List.Forall₂ (fun a (t : RTree Addr) => (some a : Option Addr) = some t.data) as (qbfs As) → as = (qbfs As).map data := by
    intro as h
    generalize qbfs As = Q at h
    induction h with
    | nil => rfl
    | cons h1 _ ih => rw [List.map_cons, ← ih, Option.some.inj h1]
  have e1 := eqA _ a1
  have e2 := eqA _ b1
  subst e1 e2
  have l1 := a2.length_eq
  have l2 := b2.length_eq
  simp only [List.length_map] at l1 l2
  rw [List.forall₂_iff_get] at a2 b2
  have s1 : ∀ i (h1 : i < (qbfs As).length) (h2 : i < (qbfs ts).length), szOf (qbfs As)[i] = szOf (qbfs ts)[i] := by
    intro i h1 h2
    have := congrArg (·[i]?) a3
    simpa [h1, h2] using this
  have s2 : ∀ i (h1 : i < (qbfs As).length) (h2 : i < (qbfs us).length), szOf (qbfs As)[i] = szOf (qbfs us)[i] := by
    intro i h1 h2
    have := congrArg (·[i]?) b3
    simpa [h1, h2] using this
  constructor
  · apply List.ext_getElem
    · simp [visits]; omega
    · intro i h1 h2
      have i1 : i < (qbfs us).length := by simpa [visits] using h1
      have i2 : i < (qbfs ts).length := by simpa [visits] using h2
      have i3 : i < (qbfs As).length := by omega
      have g1 := a2.2 i (by simpa using i3) i2
      have g2 := b2.2 i (by simpa using i3) i1
      simp only [List.get_eq_getElem, List.getElem_map] at g1 g2
      simp only [visits, List.getElem_map, List.getElem_mapIdx, Prod.mk.injEq]
      refine ⟨?_, by rw [← s2 i i3 i1, ← s1 i i3 i2]⟩
      have hid : ((qbfs As).map data).idxOf (qbfs As)[i].data = i := by
        have e1 : (qbfs As)[i].data = ((qbfs As).map data)[i]'(by simpa using i3) := by simp
        rw [e1, nd.idxOf_getElem]
      simp only [mutVal, hid, g1, Option.map_some, Nat.zero_add] at g2
      have hmem : (qbfs As)[i].data ∈ ((qbfs As).map data).take k ↔ i < k := by
        constructor
        · intro hm
          obtain ⟨j, hj, e⟩ := List.getElem_of_mem hm
          rw [List.getElem_take] at e
          rw [List.length_take] at hj
          have hj' : j < ((qbfs As).map data).length := by omega
          have hid2 := nd.idxOf_getElem j hj'
          rw [e, hid] at hid2
          omega
        · intro hk
          refine List.mem_iff_getElem.mpr ⟨i, by simp [hk]; omega, ?_⟩
          rw [List.getElem_take]; simp
      simp only [hmem] at g2
      unfold first
      split at g2
      · rename_i hk; simp [hk]; exact (Option.some.inj g2).symm
      · rename_i hk; simp [hk]; exact (Option.some.inj g2).symm
  · apply List.map_congr_left
    intro i _
    by_cases i3 : i < (qbfs As).length
    · have i2 : i < (qbfs ts).length := by omega
      have g1 := a2.2 i (by simpa using i3) i2
      simp only [List.get_eq_getElem, List.getElem_map] at g1
      simp [visits, i2, i3, g1, s1 i i3 i2]
    · have i2 : ¬ i < (qbfs ts).length := by omega
      simp [visits, i2, i3]

/-! ### Addresses in a structure are distinct -/

mutual
theorem Inv.nodup_pre {h : Heap α} {K : Addr → List Addr} (hI : Inv h K) : ∀ {a : Addr} {A : RTree Addr}, Den (fun a => some a) K a A →
    A.pre.Nodup ∧ ∀ x ∈ A.pre, Reach K a x
  | a, node d ks, hd => by
    rw [Den_node] at hd
    have e : a = d := Option.some.inj hd.1
    subst e
    obtain ⟨h1, h2⟩ := hI.nodup_preL (a := a) (fun c hc => hc) (hI.l.nodup a) hd.2
    simp only [pre, List.nodup_cons, List.mem_cons]
    refine ⟨⟨fun hm => ?_, h1⟩, ?_⟩
    · obtain ⟨c, hc, hr⟩ := h2 a hm
      exact hI.not_reach_up hc hr
    · rintro x (rfl | hx)
      · exact .refl _
      · obtain ⟨c, hc, hr⟩ := h2 x hx
        exact .step hc hr
theorem Inv.nodup_preL {h : Heap α} {K : Addr → List Addr} (hI : Inv h K) : ∀ {a : Addr} {cs : List Addr} {As : List (RTree Addr)}, (∀ c ∈ cs, c ∈ K a) → cs.Nodup →
    DenL (fun a => some a) K cs As → (preL As).Nodup ∧ ∀ x ∈ preL As, ∃ c ∈ cs, Reach K c x
  | a, [], As, _, _, hd => by
    have : As = [] := by simpa using hd
    subst this; simp [preL]
  | a, c :: cs, [], _, _, hd => by simp at hd
  | a, c :: cs, A :: As, hc, nd, hd => by
    rw [DenL_cons] at hd
    rw [List.nodup_cons] at nd
    obtain ⟨h1, h2⟩ := hI.nodup_pre hd.1
    obtain ⟨h3, h4⟩ := hI.nodup_preL (a := a) (fun x hx => hc x (by simp [hx])) nd.2 hd.2
    simp only [preL, List.nodup_append, List.mem_append]
    refine ⟨⟨h1, h3, ?_⟩, ?_⟩
    · rintro x hx y hy rfl
      obtain ⟨c', hc', hr⟩ := h4 x hy
      have := hI.sib_disjoint (hc c (by simp)) (hc c' (by simp [hc'])) (h2 x hx) hr
      exact nd.1 (this ▸ hc')
    · rintro x (hx | hx)
      · exact ⟨c, by simp, h2 x hx⟩
      · obtain ⟨c', hc', hr⟩ := h4 x hx
        exact ⟨c', by simp [hc'], hr⟩
end

end Trees
