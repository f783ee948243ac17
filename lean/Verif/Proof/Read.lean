import Verif.Proof.Splice
import Verif.Model.Machine
/-
The reading operations and the remaining single-node operations.
-/
namespace Trees
set_option linter.unusedSimpArgs false
variable {α : Type}

theorem dataRef_ok {h : Heap α} {a : Addr} {d : α} (hl : h.live a = true) (hv : h.val a = some d) :
    dataRef a h = .ok d h := by
  unfold Heap.val at hv
  simp [dataRef, hl, hv]

theorem resolve_append {K : Addr → List Addr} {p q : Path} : ∀ {a},
    resolve K a (p ++ q) = (resolve K a p).bind (fun b => resolve K b q) := by
  induction p with
  | nil => intro a; simp [resolve]
  | cons i p ih =>
    intro a
    simp only [List.cons_append, resolve]
    cases (K a)[i]? with
    | none => simp
    | some c => simp [ih]

theorem locate_ok {h : Heap α} {K : Addr → List Addr} (hI : Inv h K) {p : Path} : ∀ {a}, h.Used a →
    locate a p h = .ok (resolve K a p) h := by
  induction p with
  | nil => intro a _; simp [locate, resolve]
  | cons i p ih =>
    intro a ha
    obtain ⟨it, e1, hA⟩ := iter_at hI ha
    obtain ⟨it', e2, -⟩ := RawIter.nth_ok (n := i) hA
    simp only [locate, M.bind_apply, e1, Res.bind_ok, e2, resolve]
    cases hc : (K a)[i]? with
    | none => simp
    | some c => simpa using ih (hI.used_of_mem (List.mem_of_getElem? hc))

theorem readMany_ok {β : Type} {h : Heap α} {f : Addr → M α β} {R : Addr → β → Prop} {cs : List Addr}
    (hf : ∀ c ∈ cs, ∀ t, R c t → f c h = .ok t h) : ∀ {ts}, List.Forall₂ R cs ts → readMany f cs h = .ok ts h := by
  induction cs with
  | nil => intro ts h2; cases h2; simp [readMany]
  | cons c cs ih =>
    intro ts h2
    cases h2 with
    | cons h3 h4 =>
      simp only [readMany, M.bind_apply, hf c (by simp) _ h3, Res.bind_ok,
        ih (fun x hx => hf x (by simp [hx])) h4, M.pure_apply]

theorem readTree_ok {h : Heap α} {K : Addr → List Addr} (hI : Inv h K) : ∀ (k : Nat) {a : Addr} {t : RTree α},
    h.Used a → Den h.val K a t → (h.size a).descendants < k → readTree k a h = .ok t h := by
  intro k
  induction k with
  | zero => intro a t _ _ hk; omega
  | succ k ih =>
    intro a t ha hd hk
    cases t with
    | node d ts =>
      simp only [Den_node] at hd
      simp only [readTree, M.bind_apply, dataRef_ok ha.1 hd.1, Res.bind_ok, children_ok hI ha]
      rw [readMany_ok (R := Den h.val K) ?_ (DenL_forall₂.mp hd.2)]
      · simp
      · intro c hc t ht
        have := hI.desc_lt hc
        exact ih (hI.used_of_mem hc) ht (by omega)

theorem readKids_ok {h : Heap α} {K : Addr → List Addr} (hI : Inv h K) {a : Addr} {ts : List (RTree α)}
    (ha : h.Used a) (hd : DenL h.val K (K a) ts) : readKids a h = .ok ts h := by
  simp only [readKids, M.fuelled_apply, M.bind_apply, children_ok hI ha, Res.bind_ok]
  refine readMany_ok (R := Den h.val K) ?_ (DenL_forall₂.mp hd)
  intro c hc t ht
  have := hI.desc_lt hc
  exact readTree_ok hI _ (hI.used_of_mem hc) ht (by omega)

/-! ### Changing the data of one node -/

theorem Inv.setData {h h' : Heap α} {K : Addr → List Addr} (hI : Inv h K)
    (hU : ∀ x, h'.Used x ↔ h.Used x) (e1 : h'.prev = h.prev) (e2 : h'.next = h.next)
    (e3 : h'.head = h.head) (e4 : h'.tail = h.tail) (e5 : h'.up = h.up) (e6 : h'.size = h.size)
    (e7 : h'.nextAddr = h.nextAddr) : Inv h' K := by
  have hUe : h'.Used = h.Used := by funext x; exact propext (hU x)
  refine ⟨⟨?_, ?_, ?_, ?_, ?_, ?_, ?_⟩, ?_, ?_⟩
  · rw [hUe, e3]; exact hI.l.head
  · rw [hUe, e4]; exact hI.l.tail
  · rw [hUe, e5]; exact hI.l.mem
  · rw [hUe, e5]; exact hI.l.upU
  · rw [hUe, e1, e2]; exact hI.l.links
  · exact hI.l.nodup
  · rw [hUe, e1, e2, e5]; exact hI.l.root
  · unfold SzInv; rw [hUe, e6]; exact hI.s
  · unfold Bnd; rw [hUe, e7]; exact hI.b

/-- Two data fields that give the node the same owner. -/
def SameOwner : Data α → Data α → Prop
  | .scattered _ o, .scattered _ o' => o = o'
  | .scattered _ o, .scatteredNone o' => o = o'
  | .piled _ v, .piled _ v' => v = v'
  | .piled _ v, .piledNone v' => v = v'
  | _, _ => False

theorem setData_inv {h : Heap α} {K : Addr → List Addr} {D : Nat → Nat} (hI : Inv h K) (hS : SInvD h D) {a : Addr}
    (ha : h.Used a) {d : Data α} (hd : SameOwner (h.data a) d) (lg : List α) :
    let h' : Heap α := { h with data := upd h.data a d, log := h.log ++ lg }
    Inv h' K ∧ SInvD h' D ∧ (∀ x, h'.Used x ↔ h.Used x) := by
  intro h'
  have hdn : d.isNone = false := by
    cases hda : h.data a <;> cases d <;> simp [hda, SameOwner] at hd <;> rfl
  have hU : ∀ x, h'.Used x ↔ h.Used x := by
    intro x
    simp only [Heap.Used, h', upd_apply]
    by_cases hx : x = a
    · subst hx; simp [hdn, ha.1, ha.2]
    · simp [hx]
  have hUe : h'.Used = h.Used := by funext x; exact propext (hU x)
  have hB : h'.usedB = h.usedB := by
    funext x
    have := hU x
    rw [← Heap.usedB_iff, ← Heap.usedB_iff] at this
    cases h1 : h'.usedB x <;> cases h2 : h.usedB x <;> simp [h1, h2] at this <;> rfl
  refine ⟨hI.setData hU rfl rfl rfl rfl rfl rfl rfl, ?_, hU⟩
  refine ⟨hS.liveB, hS.vecB, ?_, hS.pos, hS.disj, ?_, ?_⟩
  · intro v nv hv
    rw [hS.cnt v nv hv]
    simp [usedCnt, hB]
  · intro x hx
    have hx' := (hU x).mp hx
    have ho := hS.owner x hx'
    by_cases hxa : x = a
    · subst hxa
      have : h'.data x = d := by simp [h']
      rw [this]
      cases hda : h.data x <;> cases hdd : d <;> simp [hda, hdd, SameOwner] at hd <;> subst hd <;>
        rw [hda] at ho <;> exact ho
    · have : h'.data x = h.data x := by simp [h', upd_apply, hxa]
      rw [this]
      cases hda : h.data x <;> rw [hda] at ho <;> exact ho
  · intro x hx
    rw [hUe]; exact hS.tight x hx

theorem dataMutSet_ok {h : Heap α} {K : Addr → List Addr} {D : Nat → Nat} (hI : Inv h K) (hS : SInvD h D) {a : Addr}
    (ha : h.Used a) {old d : α} (hv : h.val a = some old) :
    ∃ h', dataMutSet a d h = .ok () h' ∧ Inv h' K ∧ SInvD h' D ∧ (∀ x, h'.Used x ↔ h.Used x) ∧
      h'.val = upd h.val a (some d) ∧ h'.up = h.up ∧ h'.log = h.log ++ [old] := by
  have hl := ha.1
  unfold Heap.val at hv
  cases hd : h.data a with
  | none => simp [hd, Data.val?] at hv
  | scatteredNone o => simp [hd, Data.val?] at hv
  | piledNone o => simp [hd, Data.val?] at hv
  | scattered d' o =>
    simp [hd, Data.val?] at hv; subst hv
    obtain ⟨g1, g2, g3⟩ := setData_inv hI hS ha (d := .scattered d o) (by rw [hd]; rfl) [d']
    refine ⟨_, ?_, g1, g2, g3, ?_, rfl, rfl⟩
    · simp [dataMutSet, hl, hd, logDrop]
    · funext x; simp only [Heap.val, upd_apply]; split <;> simp [Data.val?]
  | piled d' o =>
    simp [hd, Data.val?] at hv; subst hv
    obtain ⟨g1, g2, g3⟩ := setData_inv hI hS ha (d := .piled d o) (by rw [hd]; rfl) [d']
    refine ⟨_, ?_, g1, g2, g3, ?_, rfl, rfl⟩
    · simp [dataMutSet, hl, hd, logDrop]
    · funext x; simp only [Heap.val, upd_apply]; split <;> simp [Data.val?]

theorem abandon_ok {h : Heap α} {K : Addr → List Addr} {D : Nat → Nat} (hI : Inv h K) (hS : SInvD h D) {a : Addr}
    (ha : h.Used a) {d : α} (hv : h.val a = some d) :
    ∃ h', abandon a h = .ok (h.nextAddr, a) h' ∧ Inv h' (upd K h.nextAddr []) ∧ SInvD h' D ∧
      (∀ x, h'.Used x ↔ h.Used x ∨ x = h.nextAddr) ∧
      h'.val = upd (upd h.val a none) h.nextAddr (some d) ∧
      h'.up = upd h.up h.nextAddr none ∧ h'.log = h.log ∧
      (∀ x, h.Used x → K x = upd K h.nextAddr [] x) := by
  have hl := ha.1
  unfold Heap.val at hv
  have key : ∀ d', (h.data a).take = some (d', d) → SameOwner (h.data a) d' → d'.val? = none →
    ∃ h', abandon a h = .ok (h.nextAddr, a) h' ∧ Inv h' (upd K h.nextAddr []) ∧ SInvD h' D ∧
      (∀ x, h'.Used x ↔ h.Used x ∨ x = h.nextAddr) ∧
      h'.val = upd (upd h.val a none) h.nextAddr (some d) ∧
      h'.up = upd h.up h.nextAddr none ∧ h'.log = h.log ∧
      (∀ x, h.Used x → K x = upd K h.nextAddr [] x) := by
    intro d' ht hso hdv
    obtain ⟨g1, g2, g3⟩ := setData_inv hI hS ha (d := d') hso []
    simp only [List.append_nil] at g1 g2 g3
    obtain ⟨h', e, q1, q2, q3, q4, q5, q6, q7, q8, q9⟩ := makeNode_ok g1 g2 (d := .scattered d 0) (.inr ⟨_, _, rfl⟩)
    refine ⟨h', ?_, q1, q2, ?_, ?_, q5, q6, ?_⟩
    · simp [abandon, hl, ht, e]
    · intro x; rw [q3, g3]
    · funext x
      simp only [Heap.val, q4, upd_apply, Data.setOwner]
      split
      · simp [Data.val?]
      · split
        · exact hdv
        · rfl
    · intro x hx; exact q9 x ((g3 x).mpr hx)
  cases hd : h.data a with
  | none => simp [hd, Data.val?] at hv
  | scatteredNone o => simp [hd, Data.val?] at hv
  | piledNone o => simp [hd, Data.val?] at hv
  | scattered d' o =>
    simp [hd, Data.val?] at hv; subst hv
    exact key (.scatteredNone o) (by rw [hd]; rfl) (by rw [hd]; rfl) rfl
  | piled d' o =>
    simp [hd, Data.val?] at hv; subst hv
    exact key (.piledNone o) (by rw [hd]; rfl) (by rw [hd]; rfl) rfl

/-! ### Dropping an owning iterator -/

theorem intoIterDropLoop_ok {D : Nat → Nat} : ∀ (cs : List Addr) {k : Nat} {h : Heap α} {K : Addr → List Addr} {f : Addr}
    {ts : List (RTree α)}, Inv h K → SInvD h D → h.Used f → K f = cs → DenL h.val K cs ts → cs.length < k →
    ∃ h' K', intoIterDropLoop k f h = .ok () h' ∧ Inv h' K' ∧ SInvD h' D ∧ K' f = [] ∧
      Shrink h (upd K f []) h' K' (fun x => Reach K f x ∧ x ≠ f) (RTree.postL ts) := by
  intro cs
  induction cs with
  | nil =>
    intro k h K f ts hI hS hf hK hd hk
    simp only [DenL_nil] at hd
    subst hd
    have hre : ∀ x, Reach K f x ↔ x = f := by intro x; rw [reach_iff, hK]; simp
    have hKe : upd K f [] = K := by
      funext x; simp only [upd_apply]; split
      · rename_i e; rw [e, hK]
      · rfl
    refine ⟨h, K, ?_, hI, hS, hK, ?_⟩
    · cases k with
      | zero => simp at hk
      | succ k => simp [intoIterDropLoop, popFront_nil hI hf hK]
    · rw [hKe]
      refine ⟨?_, fun _ _ _ => rfl, fun _ _ _ => rfl, fun _ _ _ => rfl, fun _ _ _ => rfl, rfl, rfl, rfl, by simp⟩
      intro x
      simp only [hre]
      constructor
      · intro hx; exact ⟨hx, fun hh => hh.2 hh.1⟩
      · exact fun hx => hx.1
  | cons c cs ih =>
    intro k h K f ts hI hS hf hK hd hk
    rw [DenL_cons_left] at hd
    obtain ⟨t, ts, rfl, d1, d2⟩ := hd
    cases k with
    | zero => simp at hk
    | succ k =>
    have hcK : c ∈ K f := by rw [hK]; simp
    have hUc := hI.used_of_mem hcK
    have hfc : f ≠ c := by rintro rfl; exact hI.not_self hcK
    obtain ⟨h1, e1, same, hup1, hI1⟩ := popFront_ok hI hK
    have hS1 := hS.same same
    have hv1 : h1.val = h.val := by funext a; simp [Heap.val, same.data]
    have hr1 : ∀ {x}, Reach (upd K f cs) c x ↔ Reach K c x := Removed.reach (h' := h1) hI hcK
    have hupK : ∀ b, b ≠ f → upd K f cs b = K b := fun b hb => by simp [upd_apply, hb]
    cases t with
    | node d us =>
    simp only [Den_node] at d1
    have hden1 : DenL h1.val (upd K f cs) ((upd K f cs) c) us := by
      rw [hv1, hupK c (fun e => hfc e.symm)]
      refine d1.2.congr (fun x hx b hb => ⟨hupK b ?_, rfl⟩)
      rintro rfl; exact hI.not_reach_up hcK (.step hx hb)
    obtain ⟨h2, K2, e2, D2⟩ := dropRoot_ok hI1 hS1 ((same.used c).mpr hUc) (by rw [hup1]; simp) hden1
    have hnf : ¬ Reach (upd K f cs) c f := by rw [hr1]; exact hI.not_reach_up hcK
    have hUf1 := (same.used f).mpr hf
    have hUf2 : h2.Used f := (D2.sh.used f).mpr ⟨hUf1, hnf⟩
    have hK2 : K2 f = cs := by rw [D2.sh.kids f hUf1 hnf]; simp
    have hnd := hI.l.nodup f
    rw [hK] at hnd
    have hrest : ∀ x ∈ cs, ∀ b, Reach K x b → h.Used b ∧ ¬ Reach (upd K f cs) c b ∧ b ≠ f := by
      intro x hx b hb
      have hxK : x ∈ K f := by rw [hK]; simp [hx]
      refine ⟨hI.reach_used (hI.used_of_mem hxK) hb, ?_, ?_⟩
      · rw [hr1]; intro hcb
        have := hI.sib_disjoint hxK hcK hb hcb
        subst this
        exact (List.nodup_cons.mp hnd).1 hx
      · rintro rfl; exact hI.not_reach_up hxK hb
    have hK2' : ∀ x ∈ cs, ∀ b, Reach K x b → K2 b = K b ∧ h2.val b = h.val b := by
      intro x hx b hb
      obtain ⟨g1, g2, g3⟩ := hrest x hx b hb
      refine ⟨by rw [D2.sh.kids b ((same.used b).mpr g1) g2, hupK b g3], ?_⟩
      simp only [Heap.val]; rw [D2.sh.data b ((same.used b).mpr g1) g2, same.data]
    obtain ⟨h3, K3, e3, I3, S3, K3f, Sh3⟩ := ih (k := k) D2.inv D2.st hUf2 hK2 (d2.congr hK2') (by simpa using hk)
    have hreach : ∀ x, h.Used x → ((¬ Reach (upd K f cs) c x ∧ ¬ (Reach K2 f x ∧ x ≠ f)) ↔ ¬ (Reach K f x ∧ x ≠ f)) := by
      intro x hx
      have hiff : Reach K2 f x ↔ x = f ∨ ∃ k ∈ cs, Reach K k x := by
        rw [reach_iff, hK2]
        apply or_congr Iff.rfl
        apply exists_congr; intro k
        apply and_congr_right; intro hk
        exact reach_congr (fun b hb => (hK2' k hk b hb).1)
      have hne : Reach K c x → x ≠ f := by rintro hr rfl; exact hI.not_reach_up hcK hr
      rw [hr1, hiff, reach_iff (a := f), hK]
      simp only [List.mem_cons, exists_eq_or_imp]
      generalize (∃ k, k ∈ cs ∧ Reach K k x) = P
      generalize Reach K c x = Q at *
      grind
    refine ⟨h3, K3, ?_, I3, S3, K3f, ?_⟩
    · simp only [intoIterDropLoop, M.bind_apply, e1, Res.bind_ok, e2, e3]
    · have hU2 : ∀ x, h.Used x → ¬ (Reach K f x ∧ x ≠ f) → (h1.Used x ∧ ¬ Reach (upd K f cs) c x) ∧
          (h2.Used x ∧ ¬ (Reach K2 f x ∧ x ≠ f)) ∧ x ≠ c := by
        intro x hx hn
        have g := (hreach x hx).mpr hn
        refine ⟨⟨(same.used x).mpr hx, g.1⟩, ⟨(D2.sh.used x).mpr ⟨(same.used x).mpr hx, g.1⟩, g.2⟩, ?_⟩
        rintro rfl; exact hn ⟨.step hcK (.refl _), fun e => hfc e.symm⟩
      refine ⟨?_, ?_, ?_, ?_, ?_, ?_, ?_, ?_, ?_⟩
      · intro x
        rw [Sh3.used, D2.sh.used, same.used, and_assoc]
        constructor
        · rintro ⟨g1, g2⟩; exact ⟨g1, (hreach x g1).mp g2⟩
        · rintro ⟨g1, g2⟩; exact ⟨g1, (hreach x g1).mpr g2⟩
      · intro x hx hn
        obtain ⟨g1, g2, g4⟩ := hU2 x hx hn
        rw [Sh3.kids x g2.1 g2.2]
        by_cases hxf : x = f
        · subst hxf; simp
        · simp only [upd_apply, hxf, if_false]
          rw [D2.sh.kids x g1.1 g1.2, hupK x hxf]
      · intro x hx hn
        obtain ⟨g1, g2, g4⟩ := hU2 x hx hn
        rw [Sh3.data x g2.1 g2.2, D2.sh.data x g1.1 g1.2, same.data]
      · intro x hx hn
        obtain ⟨g1, g2, g4⟩ := hU2 x hx hn
        rw [Sh3.up x g2.1 g2.2, D2.sh.up x g1.1 g1.2, hup1]; simp [upd_apply, g4]
      · intro x hx hn
        obtain ⟨g1, g2, g4⟩ := hU2 x hx hn
        rw [Sh3.count x g2.1 g2.2, D2.sh.count x g1.1 g1.2, same.count]
      · rw [Sh3.borrow, D2.sh.borrow, same.borrow]
      · rw [Sh3.nextAddr, D2.sh.nextAddr, same.nextAddr]
      · rw [Sh3.nextVec, D2.sh.nextVec, same.nextVec]
      · rw [Sh3.log, D2.sh.log, same.log]
        have hvc : h1.val c = some d := by rw [hv1]; exact d1.1
        rw [hvc]
        simp

theorem intoIterDrop_ok {D : Nat → Nat} {h : Heap α} {K : Addr → List Addr} {f : Addr} {ts : List (RTree α)}
    (hI : Inv h K) (hS : SInvD h D) (hf : h.Used f) (hup : h.up f = none) (hv : h.val f = none)
    (hd : DenL h.val K (K f) ts) :
    ∃ h' K', intoIterDrop f h = .ok () h' ∧ Dropped h K f (RTree.postL ts) h' K' D := by
  have hdeg := hI.s f hf
  obtain ⟨h1, K1, e1, I1, S1, K1f, Sh1⟩ := intoIterDropLoop_ok (K f) (k := (h.size f).degree + 1) hI hS hf rfl hd
    (by rw [hdeg]; simp)
  have hUf : h1.Used f := (Sh1.used f).mpr ⟨hf, by simp⟩
  have hupf : h1.up f = none := by rw [Sh1.up f hf (by simp), hup]
  have hvf : h1.val f = none := by
    simp only [Heap.val]; rw [Sh1.data f hf (by simp)]; exact hv
  obtain ⟨h2, K2, e2, D2⟩ := dropRoot_ok (ts := []) I1 S1 hUf hupf (by rw [K1f]; simp)
  have hre : ∀ x, Reach K1 f x ↔ x = f := by intro x; rw [reach_iff, K1f]; simp
  refine ⟨h2, K2, ?_, D2.inv, D2.st, ?_⟩
  · simp only [intoIterDrop, M.bind_apply, M.fuelled_apply, e1, Res.bind_ok, e2]
  · have hU : ∀ x, h.Used x → ¬ Reach K f x → ¬ (Reach K f x ∧ x ≠ f) ∧ h1.Used x ∧ ¬ Reach K1 f x ∧ x ≠ f := by
      intro x hx hn
      have hxf : x ≠ f := by rintro rfl; exact hn (.refl _)
      exact ⟨fun hh => hn hh.1, (Sh1.used x).mpr ⟨hx, fun hh => hn hh.1⟩, by rw [hre]; exact hxf, hxf⟩
    refine ⟨?_, ?_, ?_, ?_, ?_, ?_, ?_, ?_, ?_⟩
    · intro x
      rw [D2.sh.used, Sh1.used, hre]
      constructor
      · rintro ⟨⟨g1, g2⟩, g3⟩; exact ⟨g1, fun hr => g2 ⟨hr, g3⟩⟩
      · rintro ⟨g1, g2⟩
        exact ⟨⟨g1, fun hh => g2 hh.1⟩, by rintro rfl; exact g2 (.refl _)⟩
    · intro x hx hn
      obtain ⟨g1, g2, g3, g4⟩ := hU x hx hn
      rw [D2.sh.kids x g2 g3, Sh1.kids x hx g1]; simp [upd_apply, g4]
    · intro x hx hn
      obtain ⟨g1, g2, g3, g4⟩ := hU x hx hn
      rw [D2.sh.data x g2 g3, Sh1.data x hx g1]
    · intro x hx hn
      obtain ⟨g1, g2, g3, g4⟩ := hU x hx hn
      rw [D2.sh.up x g2 g3, Sh1.up x hx g1]
    · intro x hx hn
      obtain ⟨g1, g2, g3, g4⟩ := hU x hx hn
      rw [D2.sh.count x g2 g3, Sh1.count x hx g1]
    · rw [D2.sh.borrow, Sh1.borrow]
    · rw [D2.sh.nextAddr, Sh1.nextAddr]
    · rw [D2.sh.nextVec, Sh1.nextVec]
    · rw [D2.sh.log, Sh1.log, hvf]; simp

/-! ### parent() -/

theorem parent_ok {h : Heap α} {K : Addr → List Addr} (hI : Inv h K) {a : Addr} (ha : h.Used a)
    (hkv : ∀ a c, c ∈ K a → h.IsVal c) :
    parent a h = .ok (match h.up a with
      | none => none
      | some p => if (h.data p).isForest then none else some p) h := by
  have hpos : 0 < h.nextAddr := Nat.lt_of_le_of_lt (Nat.zero_le a) (hI.b a ha)
  obtain ⟨n, hn⟩ : ∃ n, h.nextAddr = n + 1 := ⟨h.nextAddr - 1, by omega⟩
  cases hup : h.up a with
  | none => simp [parent, parentLoop, ha.1, hup]
  | some p =>
    have hpa : a ∈ K p := hI.mem_iff.mpr ⟨ha, hup⟩
    have hp := hI.used_parent hpa
    cases hf : (h.data p).isForest with
    | false => simp [parent, parentLoop, ha.1, hup, hp.1, hf]
    | true =>
      have hup2 : h.up p = none := by
        cases hu : h.up p with
        | none => rfl
        | some q =>
          have := (hkv q p (hI.mem_iff.mpr ⟨hp, hu⟩)).notForest
          rw [hf] at this; simp at this
      simp [parent, parentLoop, hn, ha.1, hup, hp.1, hf, hup2]

end Trees
