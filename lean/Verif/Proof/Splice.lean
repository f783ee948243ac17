import Verif.Proof.Drop
/-
Iterators over children; splicing forests.
-/
namespace Trees
set_option linter.unusedSimpArgs false
variable {α : Type}

/-! ### Iterators -/

theorem RawIter.next_zero (c : Option Addr) (h : Heap α) : RawIter.next ⟨c, 0⟩ h = .ok (none, ⟨c, 0⟩) h := by
  simp [RawIter.next]

theorem RawIter.next_succ {h : Heap α} {c : Addr} {n : Nat} (hl : h.live c = true) :
    RawIter.next ⟨some c, n + 1⟩ h = .ok (some c, ⟨h.next c, n⟩) h := by
  simp [RawIter.next, uncountedNext, hl]

/-- An iterator standing before the nodes `cs`. -/
def RawIter.At (h : Heap α) (it : RawIter) (cs : List Addr) : Prop :=
  it.len = cs.length ∧ (cs ≠ [] → it.curr = cs.head?) ∧ (∀ c ∈ cs, h.live c = true) ∧
    ∃ l r, Links h.prev h.next l cs r

theorem RawIter.At.next_nil {h : Heap α} {it : RawIter} (hA : it.At h []) : it.next h = .ok (none, it) h := by
  obtain ⟨h1, -⟩ := hA
  obtain ⟨c, n⟩ := it
  simp at h1; subst h1
  exact RawIter.next_zero c h

theorem RawIter.At.next_cons {h : Heap α} {it : RawIter} {c : Addr} {cs : List Addr} (hA : it.At h (c :: cs)) :
    ∃ it', it.next h = .ok (some c, it') h ∧ it'.At h cs := by
  obtain ⟨h1, h2, h3, l, r, h4⟩ := hA
  obtain ⟨cu, n⟩ := it
  simp at h1 h2
  subst h1 h2
  refine ⟨_, RawIter.next_succ (h3 c (by simp)), rfl, ?_, fun x hx => h3 x (by simp [hx]), some c, r, h4.2.2⟩
  intro hne
  have h5 := h4.2.1
  cases cs with
  | nil => exact absurd rfl hne
  | cons x xs => simpa using h5

theorem iter_at {h : Heap α} {K : Addr → List Addr} (hI : Inv h K) {a : Addr} (ha : h.Used a) :
    ∃ it, iter a h = .ok it h ∧ it.At h (K a) := by
  have hh := hI.l.head a ha
  have hs := hI.s a ha
  have hl : ∀ c ∈ K a, h.live c = true := fun c hc => (hI.used_of_mem hc).1
  have hk := hI.l.links a ha
  cases hK : K a with
  | nil =>
    rw [hK] at hh
    exact ⟨⟨none, 0⟩, by simp [iter, ha.1, hh], rfl, by simp, by simp, none, none, trivial⟩
  | cons c cs =>
    rw [hK] at hh hl hk hs
    refine ⟨⟨some c, (h.size a).degree⟩, by simp [iter, ha.1, hh], by simp [hs], by simp, hl, none, none, hk⟩

theorem RawIter.collect_ok {h : Heap α} {cs : List Addr} : ∀ {it : RawIter} {n : Nat}, it.At h cs → cs.length ≤ n →
    it.collect n h = .ok cs h := by
  induction cs with
  | nil =>
    intro it n hA _
    cases n <;> simp [RawIter.collect, hA.next_nil]
  | cons c cs ih =>
    intro it n hA hn
    cases n with
    | zero => simp at hn
    | succ n =>
      obtain ⟨it', e, hA'⟩ := hA.next_cons
      simp only [RawIter.collect, M.bind_apply, e, Res.bind_ok, ih hA' (by simpa using hn), M.pure_apply]

theorem children_ok {h : Heap α} {K : Addr → List Addr} (hI : Inv h K) {a : Addr} (ha : h.Used a) :
    children a h = .ok (K a) h := by
  obtain ⟨it, e, hA⟩ := iter_at hI ha
  simp only [children, M.bind_apply, e, Res.bind_ok]
  exact RawIter.collect_ok hA (Nat.le_of_eq hA.1.symm)

theorem RawIter.nth_ok {h : Heap α} : ∀ {n : Nat} {it : RawIter} {cs : List Addr}, it.At h cs →
    ∃ it', it.nth n h = .ok (cs[n]?, it') h ∧ it'.At h (cs.drop (n + 1)) := by
  intro n
  induction n with
  | zero =>
    intro it cs hA
    cases cs with
    | nil => exact ⟨it, by simp [RawIter.nth, hA.next_nil], by simpa using hA⟩
    | cons c cs =>
      obtain ⟨it', e, hA'⟩ := hA.next_cons
      exact ⟨it', by simp [RawIter.nth, e], by simpa using hA'⟩
  | succ n ih =>
    intro it cs hA
    cases cs with
    | nil => exact ⟨it, by simp [RawIter.nth, hA.next_nil], by simpa using hA⟩
    | cons c cs =>
      obtain ⟨it', e, hA'⟩ := hA.next_cons
      obtain ⟨it2, e2, hA2⟩ := ih hA'
      refine ⟨it2, ?_, by simpa using hA2⟩
      simp only [RawIter.nth, M.bind_apply, e, Res.bind_ok, e2]
      simp

theorem setUpLoop_ok {u : Addr} {cs : List Addr} : ∀ {h : Heap α} {it : RawIter}, it.At h cs →
    setUpLoop cs.length it u h = .ok () { h with up := insUp h.up cs u } := by
  induction cs with
  | nil =>
    intro h it hA
    simp only [List.length_nil, setUpLoop, M.bind_apply, hA.next_nil, Res.bind_ok, M.pure_apply]
    congr
  | cons c cs ih =>
    intro h it hA
    obtain ⟨it', e, hA'⟩ := hA.next_cons
    have hl := hA.2.2.1 c (by simp)
    simp only [List.length_cons, setUpLoop, M.bind_apply, e, Res.bind_ok, setUp_ok hl]
    rw [ih (h := { h with up := upd h.up c (some u) }) hA']
    congr 2
    funext x
    simp only [insUp, upd_apply, List.mem_cons]
    by_cases hx : x = c <;> by_cases hx' : x ∈ cs <;> simp [hx, hx']

theorem forestSetUp_ok {h : Heap α} {K : Addr → List Addr} (hI : Inv h K) {f u : Addr} (hf : h.Used f) :
    forestSetUp f u h = .ok () { h with up := insUp h.up (K f) u } := by
  obtain ⟨it, e, hA⟩ := iter_at hI hf
  simp only [forestSetUp, M.bind_apply, e, Res.bind_ok, hA.1]
  exact setUpLoop_ok hA

/-! ### Splicing -/

/-- The heap with the forest root `f` emptied. -/
def clearAt (h : Heap α) (f : Addr) : Heap α :=
  { h with head := upd h.head f none, tail := upd h.tail f none, size := upd h.size f .default }

theorem LInvX.clear {h : Heap α} {K : Addr → List Addr} (hI : Inv h K) {f : Addr} (hr : h.up f = none) :
    LInvX (clearAt h f) (upd K f []) (K f) ∧ SzInv (clearAt h f) (upd K f []) ∧ Bnd (clearAt h f) := by
  have hU : ∀ x, (clearAt h f).Used x ↔ h.Used x := fun x => Iff.rfl
  refine ⟨⟨?_, ?_, ?_, ?_, ?_, ?_, ?_⟩, ?_, hI.b⟩
  · intro a ha
    simp only [clearAt, upd_apply]; split
    · simp
    · exact hI.l.head a ha
  · intro a ha
    simp only [clearAt, upd_apply]; split
    · simp
    · exact hI.l.tail a ha
  · intro a c
    simp only [upd_apply]
    show _ ↔ h.Used c ∧ c ∉ K f ∧ h.up c = some a
    split
    · rename_i e; subst e
      simp only [List.not_mem_nil, false_iff]
      rintro ⟨h1, h2, h3⟩; exact h2 (hI.mem_iff.mpr ⟨h1, h3⟩)
    · rename_i e
      rw [hI.mem_iff]
      constructor
      · rintro ⟨h1, h2⟩
        refine ⟨h1, fun hm => ?_, h2⟩
        have := hI.up_of_mem hm
        rw [h2] at this; exact e (Option.some.inj this)
      · rintro ⟨h1, _, h2⟩; exact ⟨h1, h2⟩
  · intro a c h1 _ h2; exact hI.l.upU a c h1 (by simp) h2
  · intro a ha
    simp only [upd_apply]; split
    · trivial
    · exact hI.l.links a ha
  · intro a
    simp only [upd_apply]; split
    · simp
    · exact hI.l.nodup a
  · intro c h1 _ h2; exact hI.l.root c h1 (by simp) h2
  · intro a ha
    have hs := hI.s a ha
    simp only [upd_apply, clearAt]
    split
    · rfl
    · rw [hs]
      congr 1
      refine (dsum_congr (fun c hc => ?_)).symm
      have : c ≠ f := by rintro rfl; exact hI.not_mem_of_root hr hc
      simp [upd_apply, this]

theorem upd_comm {β : Type} (g : Addr → β) {a b : Addr} (hab : a ≠ b) (x y : β) :
    upd (upd g a x) b y = upd (upd g b y) a x := by
  funext z
  simp only [upd_apply]
  grind

/-- Hypotheses of splicing the forest `f` into the child list of `u`. -/
structure SpliceHyp (h : Heap α) (K : Addr → List Addr) (D : Nat → Nat) (u f : Addr) : Prop where
  inv : Inv h K
  st : SInvD h D
  uU : h.Used u
  fU : h.Used f
  fF : h.val f = none
  fr : h.up f = none
  ne : ∃ r, RootOf h u r ∧ r ≠ f

/-- The effect of splicing: the children of `f` are now children of `u`, `f` is gone. -/
structure Spliced (h : Heap α) (K : Addr → List Addr) (D : Nat → Nat) (u f : Addr) (ks : List Addr)
    (h' : Heap α) (K' : Addr → List Addr) : Prop where
  inv : Inv h' K'
  st : SInvD h' D
  used : ∀ x, h'.Used x ↔ h.Used x ∧ x ≠ f
  kidsU : K' u = ks
  kids : ∀ x, h.Used x → x ≠ u → x ≠ f → K' x = K x
  data : ∀ x, h.Used x → x ≠ f → h'.data x = h.data x
  up : ∀ x, h.Used x → x ≠ f → h'.up x = if x ∈ K f then some u else h.up x
  nextAddr : h'.nextAddr = h.nextAddr
  log : h'.log = h.log

theorem splice_finish {h h1 : Heap α} {K : Addr → List Addr} {D : Nat → Nat} {u f : Addr} {l r anc : List Addr}
    (H : SpliceHyp h K D u f) (hK : K u = l ++ r) (hne : K f ≠ []) (huf : u ≠ f)
    (same : Same h h1)
    (e1 : h1.prev = insPrev h.prev l (K f) r) (e2 : h1.next = insNext h.next l (K f) r)
    (e3 : h1.up = insUp h.up (K f) u) (e4 : h1.head = upd (upd h.head u (l ++ K f ++ r).head?) f none)
    (e5 : h1.tail = upd (upd h.tail u (l ++ K f ++ r).getLast?) f none)
    (hc : UpChain h.up (some u) (u :: anc)) (ndc : (u :: anc).Nodup)
    (hcU : ∀ b ∈ u :: anc, h.Used b) (hf : f ∉ u :: anc)
    (e6 : h1.size = upd (fun a => if a ∈ u :: anc then
      ⟨(h.size a).degree + (if a = u then (h.size f).degree else 0),
        (h.size a).descendants + (h.size f).descendants⟩ else h.size a) f .default) :
    ∃ h' K', dropRoot f h1 = .ok () h' ∧ Spliced h K D u f (l ++ K f ++ r) h' K' := by
  obtain ⟨c1, c2, c3⟩ := LInvX.clear H.inv H.fr
  have hsf := H.inv.s f H.fU
  have hxs : ∀ x ∈ K f, x ∉ u :: anc := by
    intro x hx hm
    obtain ⟨r0, ⟨l0, d1, d2⟩, hr⟩ := H.ne
    have e := UpChain.unique hc d1
    -- the chain from x ends in f
    have hxc : ∀ {l : List Addr} {n : Addr}, UpChain h.up (some n) (n :: l) → x ∈ n :: l → f ∈ n :: l := by
      intro l
      induction l with
      | nil =>
        intro n hch hm
        simp at hm; subst hm
        have : h.up x = none := hch.2
        rw [H.inv.up_of_mem hx] at this; simp at this
      | cons p l ih =>
        intro n hch hm
        have hup : h.up n = some p := hch.2.1
        have hch2 : UpChain h.up (some p) (p :: l) := by have := hch.2; rwa [hup] at this
        rcases List.mem_cons.mp hm with rfl | hm
        · rw [H.inv.up_of_mem hx] at hup
          obtain rfl := Option.some.inj hup
          simp
        · exact List.mem_cons_of_mem _ (ih hch2 hm)
    exact hf (hxc hc hm)
  have hKu : (upd K f []) u = l ++ r := by simp [upd_apply, huf, hK]
  have hI1 : Inv h1 (upd (upd K f []) u (l ++ K f ++ r)) := by
    refine Inv.insert (h := clearAt h f) (anc := anc) c1 c2 c3 H.uU hKu hne
      (fun x hx => H.inv.used_of_mem hx) (H.inv.l.nodup f) (H.inv.l.links f H.fU)
      ⟨same.live, same.data, same.count, same.borrow, same.vec, same.nextAddr, same.nextVec, same.log⟩
      e1 e2 e3 ?_ ?_ hc ndc hcU hxs ?_
    · rw [e4, upd_comm _ huf]; rfl
    · rw [e5, upd_comm _ huf]; rfl
    · intro a
      rw [e6]
      have hds : dsum (clearAt h f).size (K f) = dsum h.size (K f) := by
        refine dsum_congr (fun c hc => ?_)
        have : c ≠ f := by rintro rfl; exact H.inv.not_self hc
        simp [clearAt, upd_apply, this]
      rw [hds]
      simp only [upd_apply, clearAt]
      by_cases haf : a = f
      · subst haf
        simp only [if_true]
        rw [if_neg hf]
      · simp only [haf, if_false]
        rw [hsf]
  have hS1 := H.st.same same
  have hUf := (same.used f).mpr H.fU
  have hKf : (upd (upd K f []) u (l ++ K f ++ r)) f = [] := by
    rw [upd_of_ne _ _ (fun e => huf e.symm)]; simp
  have hupf : h1.up f = none := by
    rw [e3, insUp, if_neg H.inv.not_self]; exact H.fr
  have hvf : h1.val f = none := by
    have : h1.val f = h.val f := by simp [Heap.val, same.data]
    rw [this]; exact H.fF
  obtain ⟨h', K', e, DD⟩ := dropRoot_ok (ts := []) hI1 hS1 hUf hupf (by rw [hKf]; simp)
  have hre : ∀ x, Reach (upd (upd K f []) u (l ++ K f ++ r)) f x ↔ x = f := by
    intro x; rw [reach_iff, hKf]; simp
  refine ⟨h', K', e, DD.inv, DD.st, ?_, ?_, ?_, ?_, ?_, ?_, ?_⟩
  · intro x; rw [DD.sh.used, same.used, hre]
  · rw [DD.sh.kids u ((same.used u).mpr H.uU) (by rw [hre]; exact huf)]; simp
  · intro x hx h1 h2
    rw [DD.sh.kids x ((same.used x).mpr hx) (by rw [hre]; exact h2)]
    simp [upd_apply, h1, h2]
  · intro x hx h2
    rw [DD.sh.data x ((same.used x).mpr hx) (by rw [hre]; exact h2), same.data]
  · intro x hx h2
    rw [DD.sh.up x ((same.used x).mpr hx) (by rw [hre]; exact h2), e3]; rfl
  · rw [DD.sh.nextAddr, same.nextAddr]
  · rw [DD.sh.log, same.log, hvf]; simp

theorem splice_empty {h : Heap α} {K : Addr → List Addr} {D : Nat → Nat} {u f : Addr}
    (H : SpliceHyp h K D u f) (huf : u ≠ f) (hn : K f = []) :
    ∃ h' K', dropRoot f h = .ok () h' ∧ Spliced h K D u f (K u) h' K' := by
  obtain ⟨h', K', e, DD⟩ := dropRoot_ok (ts := []) H.inv H.st H.fU H.fr (by rw [hn]; simp)
  have hre : ∀ x, Reach K f x ↔ x = f := by
    intro x; rw [reach_iff, hn]; simp
  refine ⟨h', K', e, DD.inv, DD.st, ?_, ?_, ?_, ?_, ?_, ?_, ?_⟩
  · intro x; rw [DD.sh.used, hre]
  · rw [DD.sh.kids u H.uU (by rw [hre]; exact huf)]
  · intro x hx h1 h2; rw [DD.sh.kids x hx (by rw [hre]; exact h2)]
  · intro x hx h2; rw [DD.sh.data x hx (by rw [hre]; exact h2)]
  · intro x hx h2; rw [DD.sh.up x hx (by rw [hre]; exact h2), hn]; simp
  · rw [DD.sh.nextAddr]
  · rw [DD.sh.log, H.fF]; simp

theorem SpliceHyp.chain {h : Heap α} {K : Addr → List Addr} {D : Nat → Nat} {u f : Addr}
    (H : SpliceHyp h K D u f) : ∃ anc, UpChain h.up (some u) (u :: anc) ∧ (u :: anc).Nodup ∧
    (∀ b ∈ u :: anc, h.Used b) ∧ anc.length < h.nextAddr ∧ f ∉ u :: anc := by
  obtain ⟨anc, c1, c2, c3, c4, _⟩ := H.inv.chain H.uU
  refine ⟨anc, c1, c2, c3, c4, ?_⟩
  intro hm
  obtain ⟨r, ⟨l, d1, d2⟩, hr⟩ := H.ne
  have e := UpChain.unique c1 d1
  have := UpChain.last c1 hm H.fr
  rw [e, d2] at this
  exact hr (Option.some.inj this)

theorem append_ok {h : Heap α} {K : Addr → List Addr} {D : Nat → Nat} {u f : Addr}
    (H : SpliceHyp h K D u f) :
    ∃ h' K', append u f h = .ok () h' ∧ Spliced h K D u f (K u ++ K f) h' K' := by
  obtain ⟨anc, c1, c2, c3, c4, c5⟩ := H.chain
  have huf : u ≠ f := fun e => c5 (by simp [e])
  have hlu := H.uU.1
  have hlf := H.fU.1
  have hlive : ∀ b ∈ u :: anc, h.live b = true := fun b hb => (c3 b hb).1
  have hhf := H.inv.l.head f H.fU
  have htf := H.inv.l.tail f H.fU
  have hhead := H.inv.l.head u H.uU
  have htail := H.inv.l.tail u H.uU
  have hset := forestSetUp_ok H.inv (u := u) H.fU
  have hup' : UpChain (insUp h.up (K f) u) (some u) (u :: anc) := by
    refine c1.congr (fun b hb => ?_)
    rw [insUp, if_neg]
    intro hbf
    -- a chain through a child of f reaches f
    have : ∀ {l : List Addr} {n : Addr}, UpChain h.up (some n) (n :: l) → b ∈ n :: l → f ∈ n :: l := by
      intro l
      induction l with
      | nil =>
        intro n hch hm
        simp at hm; subst hm
        have : h.up b = none := hch.2
        rw [H.inv.up_of_mem hbf] at this; simp at this
      | cons p l ih =>
        intro n hch hm
        have hup : h.up n = some p := hch.2.1
        have hch2 : UpChain h.up (some p) (p :: l) := by have := hch.2; rwa [hup] at this
        rcases List.mem_cons.mp hm with rfl | hm
        · rw [H.inv.up_of_mem hbf] at hup
          obtain rfl := Option.some.inj hup
          simp
        · exact List.mem_cons_of_mem _ (ih hch2 hm)
    exact c5 (this c1 hb)
  cases hKf : K f with
  | nil =>
    rw [hKf] at hhf
    simp only [append, M.bind_apply, hasNoChild_ok hlf, Res.bind_ok, hhf, List.head?_nil, Option.isNone_none,
      Bool.not_true, Bool.false_eq_true, if_false, M.pure_apply]
    simpa using splice_empty H huf hKf
  | cons c cs =>
    obtain ⟨cs', z, hcz⟩ : ∃ cs' z, c :: cs = cs' ++ [z] := by
      rcases List.eq_nil_or_concat (c :: cs) with h0 | ⟨a, b, h0⟩
      · simp at h0
      · exact ⟨a, b, by simpa using h0⟩
    have hlast : (c :: cs).getLast? = some z := by rw [hcz]; simp
    have hlc : h.live c = true := (H.inv.used_of_mem (a := f) (by rw [hKf]; simp)).1
    rw [hKf] at hhf htf
    rw [hlast] at htf
    simp only [List.head?_cons] at hhf
    simp only [append, M.bind_apply, hasNoChild_ok hlf, Res.bind_ok, hhf, Option.isNone_some,
      Bool.not_false, if_true, hset]
    rcases List.eq_nil_or_concat (K u) with hk | ⟨ks, y, hk⟩
    · rw [hk] at hhead htail
      simp only [List.head?_nil, List.getLast?_nil] at hhead htail
      simp only [hasNoChild_ok, front_ok, back_ok, hlu, hlf, Res.bind_ok, hhead, hhf, htf, Option.isNone_none, if_true, unwrap_some,
        M.pure_apply, M.bind_apply, setHead_ok, setTail_ok, getSize_ok]
      rw [incSizes_ok (l := anc)]
      rotate_left
      · exact hup'
      · exact c2
      · exact hlive
      · exact c4
      simp only [Res.bind_ok, forestClear, M.bind_apply, setHead_ok, setTail_ok, setSize_ok, hlf]
      have e : K u ++ c :: cs = [] ++ K f ++ K u := by simp [hk, hKf]
      rw [e]
      refine splice_finish (l := []) (r := K u) (anc := anc) H (by simp) (by simp [hKf]) huf ⟨rfl, rfl, rfl, rfl, rfl, rfl, rfl, rfl⟩
        ?_ ?_ rfl ?_ ?_ c1 c2 c3 c5 ?_
      · funext a
        simp only [insPrev, hk, hKf, List.head?_nil, List.head?_cons, List.getLast?_nil, reduceCtorEq, if_false]
        split
        · rename_i e; rw [← Option.some.inj e]
          have := H.inv.l.links f H.fU
          rw [hKf] at this; exact this.1
        · rfl
      · funext a
        simp only [insNext, hk, hKf, hlast, List.head?_nil, List.getLast?_nil, reduceCtorEq, if_false]
        split
        · rename_i e; rw [← Option.some.inj e]
          exact (H.inv.prev_next (u := f) (l := cs') (s := z) (r := []) (by rw [hKf, hcz])).2
        · rfl
      · simp only [hk, hKf]; simp [upd]
      · simp only [hk, hKf]; simp [upd, hlast]
      · rfl
    · rw [List.concat_eq_append] at hk
      have hyK : y ∈ K u := by rw [hk]; simp
      have hly := (H.inv.used_of_mem hyK).1
      have hh : (h.head u).isNone = false := by rw [hhead, hk]; cases ks <;> simp
      rw [hk] at htail
      simp only [List.getLast?_append, List.getLast?_singleton, Option.some_or] at htail
      have hyf : y ∉ K f := fun hm => huf (H.inv.eq_of_mem hyK hm)
      have hyc : y ≠ c := by rintro rfl; exact hyf (by rw [hKf]; simp)
      have hyz : y ≠ z := by rintro rfl; exact hyf (by rw [hKf, hcz]; simp)
      simp only [hasNoChild_ok, front_ok, back_ok, hlu, hlf, Res.bind_ok, hh, hhf, htf, htail, unwrap_some, Bool.false_eq_true, if_false,
        M.pure_apply, M.bind_apply, setTail_ok, getSize_ok, getTail_ok, getHead_ok, connectNext_ok, hly, hlc]
      rw [incSizes_ok (l := anc)]
      rotate_left
      · exact hup'
      · exact c2
      · exact hlive
      · exact c4
      simp only [Res.bind_ok, forestClear, M.bind_apply, setHead_ok, setTail_ok, setSize_ok, hlf]
      have e : K u ++ c :: cs = K u ++ K f ++ [] := by simp [hKf]
      rw [e]
      refine splice_finish (l := K u) (r := []) (anc := anc) H (by simp) (by simp [hKf]) huf ⟨rfl, rfl, rfl, rfl, rfl, rfl, rfl, rfl⟩
        ?_ ?_ rfl ?_ ?_ c1 c2 c3 c5 ?_
      · funext a
        simp only [insPrev, hk, hKf, List.head?_nil, List.head?_cons, List.getLast?_append, List.getLast?_singleton, Option.some_or, reduceCtorEq, if_false, upd_apply]
        by_cases hac : a = c
        · simp [hac]
        · have : c ≠ a := fun e => hac e.symm
          simp [hac, this]
      · have hz := (H.inv.prev_next (u := f) (l := cs') (s := z) (r := []) (by rw [hKf, hcz])).2
        simp only [List.head?_nil] at hz
        funext a
        simp only [insNext, hk, hKf, hlast, List.head?_nil, List.head?_cons, List.getLast?_append, List.getLast?_singleton, Option.some_or, upd_apply]
        clear * - hz hyz
        grind
      · funext a
        simp only [upd_apply]
        split
        · rfl
        · split
          · rename_i e; rw [e, hhead, hk]; cases ks <;> simp
          · rfl
      · simp only [hk, hKf, List.append_nil, List.getLast?_append, hlast, Option.some_or]
      · rfl

theorem prepend_ok {h : Heap α} {K : Addr → List Addr} {D : Nat → Nat} {u f : Addr}
    (H : SpliceHyp h K D u f) :
    ∃ h' K', prepend u f h = .ok () h' ∧ Spliced h K D u f (K f ++ K u) h' K' := by
  obtain ⟨anc, c1, c2, c3, c4, c5⟩ := H.chain
  have huf : u ≠ f := fun e => c5 (by simp [e])
  have hlu := H.uU.1
  have hlf := H.fU.1
  have hlive : ∀ b ∈ u :: anc, h.live b = true := fun b hb => (c3 b hb).1
  have hhf := H.inv.l.head f H.fU
  have htf := H.inv.l.tail f H.fU
  have hhead := H.inv.l.head u H.uU
  have htail := H.inv.l.tail u H.uU
  have hset := forestSetUp_ok H.inv (u := u) H.fU
  have hup' : UpChain (insUp h.up (K f) u) (some u) (u :: anc) := by
    refine c1.congr (fun b hb => ?_)
    rw [insUp, if_neg]
    intro hbf
    have : ∀ {l : List Addr} {n : Addr}, UpChain h.up (some n) (n :: l) → b ∈ n :: l → f ∈ n :: l := by
      intro l
      induction l with
      | nil =>
        intro n hch hm
        simp at hm; subst hm
        have : h.up b = none := hch.2
        rw [H.inv.up_of_mem hbf] at this; simp at this
      | cons p l ih =>
        intro n hch hm
        have hup : h.up n = some p := hch.2.1
        have hch2 : UpChain h.up (some p) (p :: l) := by have := hch.2; rwa [hup] at this
        rcases List.mem_cons.mp hm with rfl | hm
        · rw [H.inv.up_of_mem hbf] at hup
          obtain rfl := Option.some.inj hup
          simp
        · exact List.mem_cons_of_mem _ (ih hch2 hm)
    exact c5 (this c1 hb)
  have e : K f ++ K u = [] ++ K f ++ K u := by simp
  rw [e]
  cases hKf : K f with
  | nil =>
    rw [hKf] at hhf
    simp only [prepend, M.bind_apply, hasNoChild_ok hlf, Res.bind_ok, hhf, List.head?_nil, Option.isNone_none,
      Bool.not_true, Bool.false_eq_true, if_false, M.pure_apply]
    simpa using splice_empty H huf hKf
  | cons c cs =>
    obtain ⟨cs', z, hcz⟩ : ∃ cs' z, c :: cs = cs' ++ [z] := by
      rcases List.eq_nil_or_concat (c :: cs) with h0 | ⟨a, b, h0⟩
      · simp at h0
      · exact ⟨a, b, by simpa using h0⟩
    have hlast : (c :: cs).getLast? = some z := by rw [hcz]; simp
    have hlc : h.live c = true := (H.inv.used_of_mem (a := f) (by rw [hKf]; simp)).1
    have hlz : h.live z = true := (H.inv.used_of_mem (a := f) (by rw [hKf, hcz]; simp)).1
    have hcp : h.prev c = none := by
      have := H.inv.l.links f H.fU
      rw [hKf] at this; exact this.1
    have hzn : h.next z = none :=
      (H.inv.prev_next (u := f) (l := cs') (s := z) (r := []) (by rw [hKf, hcz])).2
    rw [hKf] at hhf htf
    rw [hlast] at htf
    simp only [List.head?_cons] at hhf
    simp only [prepend, M.bind_apply, hasNoChild_ok hlf, Res.bind_ok, hhf, Option.isNone_some,
      Bool.not_false, if_true, hset]
    cases hk : K u with
    | nil =>
      rw [hk] at hhead htail
      simp only [List.head?_nil, List.getLast?_nil] at hhead htail
      simp only [hasNoChild_ok, front_ok, back_ok, hlu, hlf, Res.bind_ok, hhead, hhf, htf, Option.isNone_none, if_true, unwrap_some,
        M.pure_apply, M.bind_apply, setHead_ok, setTail_ok, getSize_ok]
      rw [incSizes_ok (l := anc)]
      rotate_left
      · exact hup'
      · exact c2
      · exact hlive
      · exact c4
      simp only [Res.bind_ok, forestClear, M.bind_apply, setHead_ok, setTail_ok, setSize_ok, hlf]
      rw [← hKf]
      refine splice_finish (l := []) (r := []) (anc := anc) H (by simp [hk]) (by simp [hKf]) huf ⟨rfl, rfl, rfl, rfl, rfl, rfl, rfl, rfl⟩
        ?_ ?_ rfl ?_ ?_ c1 c2 c3 c5 ?_
      · funext a
        simp only [insPrev, hKf, List.head?_nil, List.head?_cons, List.getLast?_nil, reduceCtorEq, if_false]
        split
        · rename_i e; rw [← Option.some.inj e]; exact hcp
        · rfl
      · funext a
        simp only [insNext, hKf, hlast, List.head?_nil, List.getLast?_nil, reduceCtorEq, if_false]
        split
        · rename_i e; rw [← Option.some.inj e]; exact hzn
        · rfl
      · simp only [hKf]; simp [upd]
      · simp only [hKf]; simp [upd, hlast]
      · rfl
    | cons y ks =>
      have hyK : y ∈ K u := by rw [hk]; simp
      have hly := (H.inv.used_of_mem hyK).1
      rw [hk] at hhead htail
      simp only [List.head?_cons] at hhead
      have hyf : y ∉ K f := fun hm => huf (H.inv.eq_of_mem hyK hm)
      have hyc : y ≠ c := by rintro rfl; exact hyf (by rw [hKf]; simp)
      have hyz : y ≠ z := by rintro rfl; exact hyf (by rw [hKf, hcz]; simp)
      simp only [hasNoChild_ok, front_ok, back_ok, hlu, hlf, Res.bind_ok, hhead, Option.isNone_some, hhf, htf, unwrap_some, Bool.false_eq_true, if_false,
        M.pure_apply, M.bind_apply, setHead_ok, getSize_ok, getTail_ok, getHead_ok, connectNext_ok, hly, hlz]
      rw [incSizes_ok (l := anc)]
      rotate_left
      · exact hup'
      · exact c2
      · exact hlive
      · exact c4
      simp only [Res.bind_ok, forestClear, M.bind_apply, setHead_ok, setTail_ok, setSize_ok, hlf]
      rw [← hKf]
      refine splice_finish (l := []) (r := y :: ks) (anc := anc) H (by simp [hk]) (by simp [hKf]) huf ⟨rfl, rfl, rfl, rfl, rfl, rfl, rfl, rfl⟩
        ?_ ?_ rfl ?_ ?_ c1 c2 c3 c5 ?_
      · funext a
        simp only [insPrev, hKf, hlast, List.head?_cons, List.getLast?_nil, upd_apply]
        clear * - hcp hyc
        grind
      · funext a
        simp only [insNext, hKf, hlast, List.head?_cons, List.getLast?_nil, reduceCtorEq, if_false, upd_apply]
        clear * - hyz
        grind
      · simp only [hKf]; simp [upd]
      · funext a
        simp only [upd_apply]
        split
        · rfl
        · split
          · rename_i e; rw [e, htail]; simp [List.getLast?_cons]
          · rfl
      · rfl

end Trees
