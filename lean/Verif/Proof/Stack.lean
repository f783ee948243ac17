import Verif.Model.Stack
import Verif.Spec.Stack
import Verif.Proof.Drop
import Verif.Proof.Traits
/-
The stack that destructors and traits need.
-/
namespace Trees
open RTree
set_option linter.unusedVariables false
variable {α σ : Type}

/-- One round of the loop of the destructor of a tree or forest with children: the first child is popped and dropped. -/
theorem drop_unroll {D : Nat → Nat} {h : Heap α} {K : Addr → List Addr} {r c : Addr} {cs : List Addr} {d : α}
    {us ts : List (RTree α)} (hI : Inv h K) (hS : SInvD h D) (hr : h.Used r) (hup : h.up r = none) (hK : K r = c :: cs)
    (hden : DenL h.val K (K r) (node d us :: ts)) :
    ∃ h1, popFront r h = .ok (some c) h1 ∧
      (Inv h1 (upd K r cs) ∧ SInvD h1 D ∧ h1.Used c ∧ h1.up c = none ∧ DenL h1.val (upd K r cs) (upd K r cs c) us ∧
        (h1.size c).descendants < (h.size r).descendants) ∧
      ∀ k, (h1.size c).descendants < k → ∃ h2 K2, dropLoop k c h1 = .ok () h2 ∧
        Inv h2 K2 ∧ SInvD h2 D ∧ h2.Used r ∧ h2.up r = none ∧ DenL h2.val K2 (K2 r) ts ∧ (h2.size r).descendants < (h.size r).descendants ∧
        K2 r = cs := by
  rw [hK, DenL_cons_left] at hden
  obtain ⟨t, ts, e, d1, d2⟩ := hden
  obtain ⟨rfl, rfl⟩ := List.cons.inj e
  have hcK : c ∈ K r := by rw [hK]; simp
  obtain ⟨h1, e1, same, hup1, hI1⟩ := popFront_ok hI hK
  have hS1 := hS.same same
  have hv1 : h1.val = h.val := by funext a; simp [Heap.val, same.data]
  have hrc : r ≠ c := by rintro rfl; exact hI.not_self hcK
  have hUc := hI.used_of_mem hcK
  have hr1 : ∀ {x}, Reach (upd K r cs) c x ↔ Reach K c x := Removed.reach (h' := h1) hI hcK
  have hupK : ∀ b, b ≠ r → upd K r cs b = K b := fun b hb => by simp [upd_apply, hb]
  have hd1 := hI.desc_lt hcK
  simp only [Den_node] at d1
  have hden1 : DenL h1.val (upd K r cs) ((upd K r cs) c) us := by
    rw [hv1, hupK c (fun e => hrc e.symm)]
    refine d1.2.congr (fun x hx b hb => ⟨hupK b ?_, rfl⟩)
    rintro rfl; exact hI.not_reach_up hcK (.step hx hb)
  have hsz1 : (h1.size c).descendants = (h.size c).descendants := by
    have g1 := hI.dsum_eq (fun x hx => hI.used_of_mem hx) d1.2
    have g2 := hI1.dsum_eq (fun x hx => hI1.used_of_mem hx) hden1
    rw [hI.s c hUc, hI1.s c ((same.used c).mpr hUc)]
    simp [g1, g2]
  have hU1 := (same.used c).mpr hUc
  have hup1c : h1.up c = none := by rw [hup1]; simp
  refine ⟨h1, e1, ⟨hI1, hS1, hU1, hup1c, hden1, by omega⟩, fun k hk1 => ?_⟩
  obtain ⟨h2, K2, e2, D2⟩ := dropLoop_ok k (r := c) (ts := us) hI1 hS1 hU1 hup1c hden1 hk1
  have hnr : ¬ Reach (upd K r cs) c r := by rw [hr1]; exact hI.not_reach_up hcK
  have hUr1 := (same.used r).mpr hr
  have hUr2 : h2.Used r := (D2.sh.used r).mpr ⟨hUr1, hnr⟩
  have hup2 : h2.up r = none := by rw [D2.sh.up r hUr1 hnr, hup1]; simp [upd_apply, hrc, hup]
  have hK2 : K2 r = cs := by rw [D2.sh.kids r hUr1 hnr]; simp
  have hnd := hI.l.nodup r
  rw [hK] at hnd
  have hrest : ∀ x ∈ cs, ∀ b, Reach K x b → h.Used b ∧ ¬ Reach (upd K r cs) c b ∧ b ≠ r := by
    intro x hx b hb
    have hxK : x ∈ K r := by rw [hK]; simp [hx]
    refine ⟨hI.reach_used (hI.used_of_mem hxK) hb, ?_, ?_⟩
    · rw [hr1]; intro hcb
      have := hI.sib_disjoint hxK hcK hb hcb
      subst this
      exact (List.nodup_cons.mp hnd).1 hx
    · rintro rfl; exact hI.not_reach_up hxK hb
  have hK2' : ∀ x ∈ cs, ∀ b, Reach K x b → K2 b = K b ∧ h2.val b = h.val b := by
    intro x hx b hb
    obtain ⟨g1, g2, g3⟩ := hrest x hx b hb
    refine ⟨by rw [D2.sh.kids b ((same.used b).mpr g1) g2, hupK b g3], ?_⟩
    simp only [Heap.val]; rw [D2.sh.data b ((same.used b).mpr g1) g2, same.data]
  have hden2 : DenL h2.val K2 (K2 r) ts := by rw [hK2]; exact d2.congr hK2'
  have hsz2 : (h2.size r).descendants < (h.size r).descendants := by
    have g1 := D2.inv.dsum_eq (fun x hx => D2.inv.used_of_mem hx) hden2
    have g2 := hI.dsum_eq (v := h.val) (cs := cs) (ts := ts)
      (fun x hx => hI.used_of_mem (a := r) (by rw [hK]; simp [hx])) d2
    have g3 := hI.s r hr
    have g4 := D2.inv.s r hUr2
    rw [g4, g3, hK]
    rw [hK2] at g1
    simp only [dsum_cons, hK2]
    omega
  exact ⟨h2, K2, e2, D2.inv, D2.st, hUr2, hup2, hden2, hsz2, hK2⟩

/-- The destructor needs room for as many calls as there are levels, no more and no less. -/
theorem dropWithin_iff {D : Nat → Nat} : ∀ (k L : Nat) {h : Heap α} {K : Addr → List Addr} {r : Addr} {ts : List (RTree α)},
    Inv h K → SInvD h D → h.Used r → h.up r = none → DenL h.val K (K r) ts → (h.size r).descendants < k →
    (heightL ts < L → dropWithin L k r h = (dropLoop k r h).bind fun _ h' => .ok (some ()) h') ∧
    (L ≤ heightL ts → ∃ h', dropWithin L k r h = .ok none h') := by
  intro k
  induction k with
  | zero => intro L h K r ts _ _ _ _ _ hk; omega
  | succ k ih =>
    intro L h K r ts hI hS hr hup hden hk
    cases L with
    | zero => exact ⟨fun h => absurd h (Nat.not_lt_zero _), fun _ => ⟨h, by unfold dropWithin; rfl⟩⟩
    | succ L =>
      cases hK : K r with
      | nil =>
        rw [hK] at hden
        simp only [DenL_nil] at hden
        subst hden
        obtain ⟨h', e, -, -⟩ := dropNode_freed hS hr
        have e0 := popFront_nil hI hr hK
        refine ⟨fun _ => ?_, fun h => absurd h (by simp [heightL])⟩
        simp only [dropWithin, dropLoop, M.bind_apply, e0, Res.bind_ok, e, M.pure_apply]
      | cons c cs =>
        have hden' := hden
        rw [hK, DenL_cons_left] at hden'
        obtain ⟨t, ts, rfl, -, -⟩ := hden'
        cases t with
        | node d us =>
        obtain ⟨h1, e1, ⟨i1, s1, u1, p1, n1, k1⟩, hrest⟩ := drop_unroll hI hS hr hup hK hden
        obtain ⟨h2, K2, e2, i2, s2, u2, p2, n2, k2, -⟩ := hrest k (by omega)
        obtain ⟨f1, f2⟩ := ih L i1 s1 u1 p1 n1 (by omega)
        obtain ⟨g1, g2⟩ := ih (L+1) i2 s2 u2 p2 n2 (by omega)
        rw [e2] at f1
        simp only [heightL, height]
        by_cases hL : heightL us < L
        · constructor
          · intro hh
            have := g1 (by omega)
            simp only [dropLoop, M.bind_apply, e1, e2, Res.bind_ok]
            rw [dropWithin]
            simp only [M.bind_apply, e1, Res.bind_ok, f1 hL]
            exact this
          · intro hh
            obtain ⟨h', e3⟩ := g2 (by omega)
            refine ⟨h', ?_⟩
            rw [dropWithin]
            simp only [M.bind_apply, e1, Res.bind_ok, f1 hL]
            exact e3
        · constructor
          · intro hh; omega
          · intro hh
            obtain ⟨h', e3⟩ := f2 (by omega)
            refine ⟨h', ?_⟩
            rw [dropWithin]
            simp only [M.bind_apply, e1, Res.bind_ok, e3, M.pure_apply]

section
variable {D : Nat → Nat} {h : Heap α} {K : Addr → List Addr} {r : Addr} {ts : List (RTree α)}

theorem dropRootWithin_iff (L : Nat) (hI : Inv h K) (hS : SInvD h D) (hr : h.Used r) (hup : h.up r = none) (hden : DenL h.val K (K r) ts) :
    (heightL ts < L → dropRootWithin L r h = (dropRoot r h).bind fun _ h' => .ok (some ()) h') ∧
    (L ≤ heightL ts → ∃ h', dropRootWithin L r h = .ok none h') := by
  simp only [dropRootWithin, dropRoot, M.fuelled_apply]
  exact dropWithin_iff _ L hI hS hr hup hden (Nat.lt_succ_self _)

end

theorem intoIterLoopWithin_iff {D : Nat → Nat} (L : Nat) : ∀ (k : Nat) {h : Heap α} {K : Addr → List Addr} {r : Addr} {ts : List (RTree α)},
    Inv h K → SInvD h D → h.Used r → h.up r = none → DenL h.val K (K r) ts → (K r).length < k →
    (heightL ts ≤ L → ∃ h' K', intoIterDropLoopWithin L k r h = .ok (some ()) h' ∧ intoIterDropLoop k r h = .ok () h' ∧
      Inv h' K' ∧ SInvD h' D ∧ h'.Used r ∧ h'.up r = none ∧ K' r = []) ∧
    (L < heightL ts → ∃ h', intoIterDropLoopWithin L k r h = .ok none h') := by
  intro k
  induction k with
  | zero => intro h K r ts _ _ _ _ _ hk; omega
  | succ k ih =>
    intro h K r ts hI hS hr hup hden hk
    cases hK : K r with
    | nil =>
      rw [hK] at hden
      simp only [DenL_nil] at hden
      subst hden
      have e0 := popFront_nil hI hr hK
      refine ⟨fun _ => ⟨h, K, ?_, ?_, hI, hS, hr, hup, hK⟩, fun h => absurd h (by simp [heightL])⟩
      · simp only [intoIterDropLoopWithin, M.bind_apply, e0, Res.bind_ok, M.pure_apply]
      · simp only [intoIterDropLoop, M.bind_apply, e0, Res.bind_ok, M.pure_apply]
    | cons c cs =>
      have hden' := hden
      rw [hK, DenL_cons_left] at hden'
      obtain ⟨t, ts, rfl, -, -⟩ := hden'
      cases t with
      | node d us =>
      obtain ⟨h1, e1, ⟨i1, s1, u1, p1, n1, k1⟩, hrest⟩ := drop_unroll hI hS hr hup hK hden
      obtain ⟨h2, K2, e2, i2, s2, u2, p2, n2, -, k2⟩ := hrest ((h1.size c).descendants + 1) (Nat.lt_succ_self _)
      have e2' : dropRoot c h1 = .ok () h2 := by simp only [dropRoot, M.fuelled_apply]; exact e2
      obtain ⟨f1, f2⟩ := dropRootWithin_iff L i1 s1 u1 p1 n1
      obtain ⟨g1, g2⟩ := ih i2 s2 u2 p2 n2 (by rw [k2]; rw [hK] at hk; simp at hk; omega)
      rw [e2'] at f1
      simp only [heightL, height]
      by_cases hL : heightL us < L
      · constructor
        · intro hh
          obtain ⟨h', K', g3, g4, g5⟩ := g1 (by omega)
          refine ⟨h', K', ?_, ?_, g5⟩
          · rw [intoIterDropLoopWithin]
            simp only [M.bind_apply, e1, Res.bind_ok, f1 hL]
            exact g3
          · rw [intoIterDropLoop]
            simp only [M.bind_apply, e1, Res.bind_ok, e2']
            exact g4
        · intro hh
          obtain ⟨h', e3⟩ := g2 (by omega)
          refine ⟨h', ?_⟩
          rw [intoIterDropLoopWithin]
          simp only [M.bind_apply, e1, Res.bind_ok, f1 hL]
          exact e3
      · constructor
        · intro hh; omega
        · intro hh
          obtain ⟨h', e3⟩ := f2 (by omega)
          refine ⟨h', ?_⟩
          rw [intoIterDropLoopWithin]
          simp only [M.bind_apply, e1, Res.bind_ok, e3, M.pure_apply]

theorem intoIterWithin_iff {D : Nat → Nat} (L : Nat) {h : Heap α} {K : Addr → List Addr} {r : Addr} {ts : List (RTree α)}
    (hI : Inv h K) (hS : SInvD h D) (hr : h.Used r) (hup : h.up r = none) (hden : DenL h.val K (K r) ts) :
    (max (heightL ts) 1 ≤ L → intoIterDropWithin L r h = (intoIterDrop r h).bind fun _ h' => .ok (some ()) h') ∧
    (L < max (heightL ts) 1 → ∃ h', intoIterDropWithin L r h = .ok none h') := by
  have hd : (h.size r).degree = (K r).length := by rw [hI.s r hr]
  obtain ⟨f1, f2⟩ := intoIterLoopWithin_iff L ((h.size r).degree + 1) hI hS hr hup hden (by omega)
  by_cases hL : heightL ts ≤ L
  · obtain ⟨h1, K1, e1, e2, i1, s1, u1, p1, k1⟩ := f1 hL
    obtain ⟨g1, g2⟩ := dropRootWithin_iff (ts := []) L i1 s1 u1 p1 (by rw [k1]; simp)
    constructor
    · intro hh
      simp only [intoIterDropWithin, intoIterDrop, M.bind_apply, M.fuelled_apply, e1, e2, Res.bind_ok]
      exact g1 (by simp [heightL]; omega)
    · intro hh
      obtain ⟨h', e3⟩ := g2 (by simp [heightL]; omega)
      refine ⟨h', ?_⟩
      simp only [intoIterDropWithin, M.bind_apply, M.fuelled_apply, e1, Res.bind_ok, e3]
  · constructor
    · intro hh; omega
    · intro hh
      obtain ⟨h', e3⟩ := f2 (by omega)
      refine ⟨h', ?_⟩
      simp only [intoIterDropWithin, M.bind_apply, M.fuelled_apply, e3, Res.bind_ok, M.pure_apply]

/-! ### Traits -/

theorem height_pos (t : RTree α) : 0 < t.height := by cases t; simp [height]

theorem forIter_iff {h : Heap α} {v : Addr → Option α} {K : Addr → List Addr} {L : Nat} {f : Addr → σ → M α σ} {F : RTree α → σ → σ} :
    ∀ {cs : List Addr} {ts : List (RTree α)} {i : RawIter} {k : Nat} {s : σ}, i.At h cs → DenL v K cs ts →
    (∀ c t s, c ∈ cs → Den v K c t → (t.height ≤ L → f c s h = .ok (F t s) h) ∧ (L < t.height → f c s h = .err .fuel h)) → cs.length < k →
    (heightL ts ≤ L → forIter f k i s h = .ok (ts.foldl (fun s t => F t s) s) h) ∧ (L < heightL ts → forIter f k i s h = .err .fuel h) := by
  intro cs
  induction cs with
  | nil =>
    intro ts i k s hi ht hf hk
    obtain ⟨k, rfl⟩ : ∃ n, k = n + 1 := ⟨k - 1, by simp at hk; omega⟩
    simp at ht; subst ht
    exact ⟨fun _ => by simp [forIter, hi.next_nil], fun hl => absurd hl (by simp [heightL])⟩
  | cons c cs ih =>
    intro ts i k s hi ht hf hk
    obtain ⟨k, rfl⟩ : ∃ n, k = n + 1 := ⟨k - 1, by simp at hk; omega⟩
    obtain ⟨t, ts', rfl, ht1, ht2⟩ := DenL_cons_left.mp ht
    obtain ⟨i', ei, hi'⟩ := hi.next_cons
    obtain ⟨f1, f2⟩ := hf c t s (by simp) ht1
    simp only [heightL]
    by_cases hL : t.height ≤ L
    · obtain ⟨g1, g2⟩ := ih (s := F t s) hi' ht2 (fun c t s hc h1 => hf c t s (by simp [hc]) h1) (k := k) (by simp at hk; omega)
      simp only [forIter, M.bind_apply, ei, Res.bind_ok, f1 hL, List.foldl_cons]
      exact ⟨fun hh => g1 (by omega), fun hh => g2 (by omega)⟩
    · simp only [forIter, M.bind_apply, ei, Res.bind_ok, f2 (by omega), Res.bind_err]
      exact ⟨fun hh => by omega, fun _ => trivial⟩

theorem iterEq_over {h : Heap α} {v : Addr → Option α} {K : Addr → List Addr} {L : Nat} {f : Addr → Addr → M α Bool} {eq : α → α → Bool} :
    ∀ {cs ds : List Addr} {ts us : List (RTree α)} {i j : RawIter} {k : Nat}, i.At h cs → j.At h ds → DenL v K cs ts → DenL v K ds us →
    (∀ c t d u, c ∈ cs → Den v K c t → d ∈ ds → Den v K d u → eqB eq t u = true →
      (t.height ≤ L → f c d h = .ok true h) ∧ (L < t.height → f c d h = .err .fuel h)) → cs.length < k →
    eqBL eq ts us = true → L < heightL ts → iterEq f k i j h = .err .fuel h := by
  intro cs
  induction cs with
  | nil =>
    intro ds ts us i j k hi hj ht hu hf hk he hl
    simp at ht; subst ht
    exact absurd hl (by simp [heightL])
  | cons c cs ih =>
    intro ds ts us i j k hi hj ht hu hf hk he hl
    obtain ⟨k, rfl⟩ : ∃ n, k = n + 1 := ⟨k - 1, by simp at hk; omega⟩
    obtain ⟨t, ts', rfl, ht1, ht2⟩ := DenL_cons_left.mp ht
    obtain ⟨i', ei, hi'⟩ := hi.next_cons
    cases ds with
    | nil => simp at hu; subst hu; simp [eqBL] at he
    | cons d ds =>
      obtain ⟨u, us', rfl, hu1, hu2⟩ := DenL_cons_left.mp hu
      obtain ⟨j', ej, hj'⟩ := hj.next_cons
      simp only [eqBL, Bool.and_eq_true] at he
      obtain ⟨f1, f2⟩ := hf c t d u (by simp) ht1 (by simp) hu1 he.1
      simp only [heightL] at hl
      by_cases hL : t.height ≤ L
      · have := ih hi' hj' ht2 hu2 (fun c t d u hc h1 hd h2 => hf c t d u (by simp [hc]) h1 (by simp [hd]) h2) (k := k)
          (by simp at hk; omega) he.2 (by omega)
        simp only [iterEq, M.bind_apply, ei, Res.bind_ok, ej, f1 hL, if_true]
        exact this
      · simp only [iterEq, M.bind_apply, ei, Res.bind_ok, ej, f2 (by omega), Res.bind_err]

theorem pthen_eq {x y : Option Ordering} : pthen x y = some .eq ↔ x = some .eq ∧ y = some .eq := by
  unfold pthen; split <;> simp_all

theorem iterCmp_over {h : Heap α} {v : Addr → Option α} {K : Addr → List Addr} {L : Nat} {f : Addr → Addr → M α Ordering} {o : α → α → Ordering} :
    ∀ {cs ds : List Addr} {ts us : List (RTree α)} {i j : RawIter} {k : Nat}, i.At h cs → j.At h ds → DenL v K cs ts → DenL v K ds us →
    (∀ c t d u, c ∈ cs → Den v K c t → d ∈ ds → Den v K d u → cmp o t u = .eq →
      (t.height ≤ L → f c d h = .ok (.eq) h) ∧ (L < t.height → f c d h = .err .fuel h)) → cs.length < k →
    cmpL o ts us = .eq → L < heightL ts → iterCmp f k i j h = .err .fuel h := by
  intro cs
  induction cs with
  | nil =>
    intro ds ts us i j k hi hj ht hu hf hk he hl
    simp at ht; subst ht
    exact absurd hl (by simp [heightL])
  | cons c cs ih =>
    intro ds ts us i j k hi hj ht hu hf hk he hl
    obtain ⟨k, rfl⟩ : ∃ n, k = n + 1 := ⟨k - 1, by simp at hk; omega⟩
    obtain ⟨t, ts', rfl, ht1, ht2⟩ := DenL_cons_left.mp ht
    obtain ⟨i', ei, hi'⟩ := hi.next_cons
    cases ds with
    | nil => simp at hu; subst hu; simp [cmpL] at he
    | cons d ds =>
      obtain ⟨u, us', rfl, hu1, hu2⟩ := DenL_cons_left.mp hu
      obtain ⟨j', ej, hj'⟩ := hj.next_cons
      simp only [cmpL, Ordering.then_eq_eq] at he
      obtain ⟨f1, f2⟩ := hf c t d u (by simp) ht1 (by simp) hu1 he.1
      simp only [heightL] at hl
      by_cases hL : t.height ≤ L
      · have := ih hi' hj' ht2 hu2 (fun c t d u hc h1 hd h2 => hf c t d u (by simp [hc]) h1 (by simp [hd]) h2) (k := k)
          (by simp at hk; omega) he.2 (by omega)
        simp only [iterCmp, M.bind_apply, ei, Res.bind_ok, ej, f1 hL]
        exact this
      · simp only [iterCmp, M.bind_apply, ei, Res.bind_ok, ej, f2 (by omega), Res.bind_err]

theorem iterPcmp_over {h : Heap α} {v : Addr → Option α} {K : Addr → List Addr} {L : Nat} {f : Addr → Addr → M α (Option Ordering)} {o : α → α → (Option Ordering)} :
    ∀ {cs ds : List Addr} {ts us : List (RTree α)} {i j : RawIter} {k : Nat}, i.At h cs → j.At h ds → DenL v K cs ts → DenL v K ds us →
    (∀ c t d u, c ∈ cs → Den v K c t → d ∈ ds → Den v K d u → pcmp o t u = some .eq →
      (t.height ≤ L → f c d h = .ok (some .eq) h) ∧ (L < t.height → f c d h = .err .fuel h)) → cs.length < k →
    pcmpL o ts us = some .eq → L < heightL ts → iterPcmp f k i j h = .err .fuel h := by
  intro cs
  induction cs with
  | nil =>
    intro ds ts us i j k hi hj ht hu hf hk he hl
    simp at ht; subst ht
    exact absurd hl (by simp [heightL])
  | cons c cs ih =>
    intro ds ts us i j k hi hj ht hu hf hk he hl
    obtain ⟨k, rfl⟩ : ∃ n, k = n + 1 := ⟨k - 1, by simp at hk; omega⟩
    obtain ⟨t, ts', rfl, ht1, ht2⟩ := DenL_cons_left.mp ht
    obtain ⟨i', ei, hi'⟩ := hi.next_cons
    cases ds with
    | nil => simp at hu; subst hu; simp [pcmpL] at he
    | cons d ds =>
      obtain ⟨u, us', rfl, hu1, hu2⟩ := DenL_cons_left.mp hu
      obtain ⟨j', ej, hj'⟩ := hj.next_cons
      simp only [pcmpL, pthen_eq] at he
      obtain ⟨f1, f2⟩ := hf c t d u (by simp) ht1 (by simp) hu1 he.1
      simp only [heightL] at hl
      by_cases hL : t.height ≤ L
      · have := ih hi' hj' ht2 hu2 (fun c t d u hc h1 hd h2 => hf c t d u (by simp [hc]) h1 (by simp [hd]) h2) (k := k)
          (by simp at hk; omega) he.2 (by omega)
        simp only [iterPcmp, M.bind_apply, ei, Res.bind_ok, ej, f1 hL]
        exact this
      · simp only [iterPcmp, M.bind_apply, ei, Res.bind_ok, ej, f2 (by omega), Res.bind_err]

theorem heightL_mem {t : RTree α} : ∀ {ts : List (RTree α)}, t ∈ ts → t.height ≤ heightL ts
  | u :: us, hm => by
    simp only [heightL]
    rcases List.mem_cons.mp hm with rfl | hm
    · exact Nat.le_max_left ..
    · exact Nat.le_trans (heightL_mem hm) (Nat.le_max_right ..)

section
variable {h : Heap α} {K : Addr → List Addr} (hI : Inv h K)
include hI

theorem nodeHash_iff (hs : α → σ → σ) : ∀ (L : Nat) {a : Addr} {t : RTree α} {s : σ}, h.Used a → Den h.val K a t →
    (t.height ≤ L → nodeHash hs L a s h = .ok (t.pre.foldl (fun s d => hs d s) s) h) ∧
    (L < t.height → nodeHash hs L a s h = .err .fuel h) := by
  intro L
  induction L with
  | zero => intro a t s _ _; exact ⟨fun hh => absurd (height_pos t) (by omega), fun _ => rfl⟩
  | succ L ih =>
    intro a t s ha ht
    obtain ⟨a1, ⟨i, a2, a3⟩, a4, a5, a6⟩ := Den.parts hI ha ht
    cases t with
    | node d ks =>
    simp only [data_node, kids_node] at *
    obtain ⟨g1, g2⟩ := forIter_iff (f := nodeHash hs L) (F := fun t s => t.pre.foldl (fun s d => hs d s) s) (k := i.len + 1) (s := hs d s)
      a3 a4 (fun c t s hc h1 => ih (a6 c hc).1 h1) (by rw [a3.1]; omega)
    simp only [height]
    constructor
    · intro hh
      simp only [nodeHash, M.bind_apply, a1, a2, Res.bind_ok, g1 (by omega), foldl_hash]
      simp
    · intro hh
      simp only [nodeHash, M.bind_apply, a1, a2, Res.bind_ok, g2 (by omega)]

theorem nodeFmt_iff (sh : α → List Char) : ∀ (L : Nat) {a : Addr} {t : RTree α} {o : List Char}, h.Used a → Den h.val K a t →
    (t.height ≤ L → nodeFmt sh L a o h = .ok (o ++ render sh t) h) ∧ (L < t.height → nodeFmt sh L a o h = .err .fuel h) := by
  intro L
  induction L with
  | zero => intro a t s _ _; exact ⟨fun hh => absurd (height_pos t) (by omega), fun _ => rfl⟩
  | succ L ih =>
    intro a t o ha ht
    obtain ⟨a1, ⟨i, a2, a3⟩, a4, a5, a6⟩ := Den.parts hI ha ht
    have hh := hI.l.head a ha
    cases t with
    | node d ks =>
    simp only [data_node, kids_node] at *
    have hit := fun s => forIter_iff (f := fun c o => do return (← nodeFmt sh L c o) ++ [' ']) (F := fun t o => o ++ render sh t ++ [' '])
      (k := i.len + 1) (s := s) (L := L) a3 a4 (fun c t s hc h1 => by
        have := ih (o := s) (a6 c hc).1 h1
        refine ⟨fun hl => ?_, fun hl => ?_⟩
        · simp [this.1 hl]
        · simp [this.2 hl]) (by rw [a3.1]; omega)
    cases hK : K a with
    | nil =>
      rw [hK] at hh a4
      simp at a4; subst a4
      have : hasNoChild a h = .ok true h := by simp [hasNoChild, getHead, ha.1, hh]
      exact ⟨fun _ => by simp [nodeFmt, this, a1, render], fun hl => absurd hl (by simp [height, heightL])⟩
    | cons c cs =>
      rw [hK] at hh
      rw [hK] at a4
      obtain ⟨t, ts, rfl, _, _⟩ := DenL_cons_left.mp a4
      have : hasNoChild a h = .ok false h := by simp [hasNoChild, getHead, ha.1, hh]
      simp only [nodeFmt, M.bind_apply, this, Res.bind_ok]
      simp only [Bool.false_eq_true, if_false, M.bind_apply, a1, Res.bind_ok, a2]
      rw [height]
      constructor
      · intro hl
        rw [(hit _).1 (by omega)]
        simp only [Res.bind_ok, renderL_foldl, M.pure_apply]
        rw [renderL_cons']
        simp
      · intro hl
        rw [(hit _).2 (by omega)]
        rfl

theorem nodeEq_within (eq : α → α → Bool) : ∀ (L : Nat) {a b : Addr} {t u : RTree α}, h.Used a → h.Used b →
    Den h.val K a t → Den h.val K b u → t.height ≤ L → nodeEq eq L a b h = .ok (eqB eq t u) h := by
  intro L
  induction L with
  | zero => intro a b t u _ _ _ _ hk; exact absurd (height_pos t) (by omega)
  | succ L ih =>
    intro a b t u ha hb ht hu hk
    obtain ⟨a1, ⟨i, a2, a3⟩, a4, a5, a6⟩ := Den.parts hI ha ht
    obtain ⟨b1, ⟨j, b2, b3⟩, b4, _, b6⟩ := Den.parts hI hb hu
    cases t with
    | node d ks => cases u with
      | node e us =>
      simp only [data_node, kids_node, height] at *
      have hmem : ∀ c t, c ∈ K a → Den h.val K c t → t.height ≤ L := by
        intro c t hc h1
        obtain ⟨n, hn⟩ := List.mem_iff_getElem?.mp hc
        rcases a4.get n with ⟨m1, -⟩ | ⟨c', t', m1, m2, m3⟩
        · rw [hn] at m1; cases m1
        · rw [hn] at m1
          cases m1
          obtain rfl := Den.unique h1 m3
          have := heightL_mem (List.mem_of_getElem? m2)
          omega
      have hit := iterEq_ok (f := nodeEq eq L) (F := eqB eq) (k := i.len + 1) a3 b3 a4 b4
        (fun c t d u hc h1 hd h2 => ih (a6 c hc).1 (b6 d hd).1 h1 h2 (hmem c t hc h1)) (by rw [a3.1]; omega)
      simp only [nodeEq, M.bind_apply, a1, b1, Res.bind_ok, eqB]
      cases eq d e with
      | false => simp
      | true => simp [a2, b2, hit, eqBL_eq]

theorem nodeEq_over (eq : α → α → Bool) : ∀ (L : Nat) {a b : Addr} {t u : RTree α}, h.Used a → h.Used b →
    Den h.val K a t → Den h.val K b u → eqB eq t u = true → L < t.height → nodeEq eq L a b h = .err .fuel h := by
  intro L
  induction L with
  | zero => intro a b t u _ _ _ _ _ _; rfl
  | succ L ih =>
    intro a b t u ha hb ht hu he hk
    obtain ⟨a1, ⟨i, a2, a3⟩, a4, a5, a6⟩ := Den.parts hI ha ht
    obtain ⟨b1, ⟨j, b2, b3⟩, b4, _, b6⟩ := Den.parts hI hb hu
    cases t with
    | node d ks => cases u with
      | node e us =>
      simp only [data_node, kids_node, height, eqB, Bool.and_eq_true] at *
      have hit := iterEq_over (f := nodeEq eq L) (eq := eq) (L := L) (k := i.len + 1) a3 b3 a4 b4
        (fun c t d u hc h1 hd h2 he => ⟨fun hl => by rw [nodeEq_within hI eq L (a6 c hc).1 (b6 d hd).1 h1 h2 hl, he],
          fun hl => ih (a6 c hc).1 (b6 d hd).1 h1 h2 he hl⟩) (by rw [a3.1]; omega) he.2 (by omega)
      simp only [nodeEq, M.bind_apply, a1, b1, Res.bind_ok, he.1, if_true, a2, b2]
      exact hit

theorem nodeCmp_within (o : α → α → Ordering) : ∀ (L : Nat) {a b : Addr} {t u : RTree α}, h.Used a → h.Used b →
    Den h.val K a t → Den h.val K b u → t.height ≤ L → nodeCmp o L a b h = .ok (cmp o t u) h := by
  intro L
  induction L with
  | zero => intro a b t u _ _ _ _ hk; exact absurd (height_pos t) (by omega)
  | succ L ih =>
    intro a b t u ha hb ht hu hk
    obtain ⟨a1, ⟨i, a2, a3⟩, a4, a5, a6⟩ := Den.parts hI ha ht
    obtain ⟨b1, ⟨j, b2, b3⟩, b4, _, b6⟩ := Den.parts hI hb hu
    cases t with
    | node d ks => cases u with
      | node e us =>
      simp only [data_node, kids_node, height] at *
      have hmem : ∀ c t, c ∈ K a → Den h.val K c t → t.height ≤ L := by
        intro c t hc h1
        obtain ⟨n, hn⟩ := List.mem_iff_getElem?.mp hc
        rcases a4.get n with ⟨m1, -⟩ | ⟨c', t', m1, m2, m3⟩
        · rw [hn] at m1; cases m1
        · rw [hn] at m1
          cases m1
          obtain rfl := Den.unique h1 m3
          have := heightL_mem (List.mem_of_getElem? m2)
          omega
      have hit := iterCmp_ok (f := nodeCmp o L) (F := cmp o) (k := i.len + 1) a3 b3 a4 b4
        (fun c t d u hc h1 hd h2 => ih (a6 c hc).1 (b6 d hd).1 h1 h2 (hmem c t hc h1)) (by rw [a3.1]; omega)
      simp only [nodeCmp, M.bind_apply, a1, b1, Res.bind_ok, cmp]
      rcases he : o d e with _ | _ | _
      · simp
      · simp [a2, b2, hit, cmpL_eq]
      · simp

theorem nodeCmp_over (o : α → α → Ordering) : ∀ (L : Nat) {a b : Addr} {t u : RTree α}, h.Used a → h.Used b →
    Den h.val K a t → Den h.val K b u → cmp o t u = .eq → L < t.height → nodeCmp o L a b h = .err .fuel h := by
  intro L
  induction L with
  | zero => intro a b t u _ _ _ _ _ _; rfl
  | succ L ih =>
    intro a b t u ha hb ht hu he hk
    obtain ⟨a1, ⟨i, a2, a3⟩, a4, a5, a6⟩ := Den.parts hI ha ht
    obtain ⟨b1, ⟨j, b2, b3⟩, b4, _, b6⟩ := Den.parts hI hb hu
    cases t with
    | node d ks => cases u with
      | node e us =>
      simp only [data_node, kids_node, height, cmp, Ordering.then_eq_eq] at *
      have hit := iterCmp_over (f := nodeCmp o L) (o := o) (L := L) (k := i.len + 1) a3 b3 a4 b4
        (fun c t d u hc h1 hd h2 he => ⟨fun hl => by rw [nodeCmp_within hI o L (a6 c hc).1 (b6 d hd).1 h1 h2 hl, he],
          fun hl => ih (a6 c hc).1 (b6 d hd).1 h1 h2 he hl⟩) (by rw [a3.1]; omega) he.2 (by omega)
      simp only [nodeCmp, M.bind_apply, a1, b1, Res.bind_ok, he.1, a2, b2]
      exact hit

theorem nodePcmp_within (o : α → α → (Option Ordering)) : ∀ (L : Nat) {a b : Addr} {t u : RTree α}, h.Used a → h.Used b →
    Den h.val K a t → Den h.val K b u → t.height ≤ L → nodePcmp o L a b h = .ok (pcmp o t u) h := by
  intro L
  induction L with
  | zero => intro a b t u _ _ _ _ hk; exact absurd (height_pos t) (by omega)
  | succ L ih =>
    intro a b t u ha hb ht hu hk
    obtain ⟨a1, ⟨i, a2, a3⟩, a4, a5, a6⟩ := Den.parts hI ha ht
    obtain ⟨b1, ⟨j, b2, b3⟩, b4, _, b6⟩ := Den.parts hI hb hu
    cases t with
    | node d ks => cases u with
      | node e us =>
      simp only [data_node, kids_node, height] at *
      have hmem : ∀ c t, c ∈ K a → Den h.val K c t → t.height ≤ L := by
        intro c t hc h1
        obtain ⟨n, hn⟩ := List.mem_iff_getElem?.mp hc
        rcases a4.get n with ⟨m1, -⟩ | ⟨c', t', m1, m2, m3⟩
        · rw [hn] at m1; cases m1
        · rw [hn] at m1
          cases m1
          obtain rfl := Den.unique h1 m3
          have := heightL_mem (List.mem_of_getElem? m2)
          omega
      have hit := iterPcmp_ok (f := nodePcmp o L) (F := pcmp o) (k := i.len + 1) a3 b3 a4 b4
        (fun c t d u hc h1 hd h2 => ih (a6 c hc).1 (b6 d hd).1 h1 h2 (hmem c t hc h1)) (by rw [a3.1]; omega)
      simp only [nodePcmp, M.bind_apply, a1, b1, Res.bind_ok, pcmp]
      rcases he : o d e with _ | _ | _ | _
      · simp [pthen]
      · simp [pthen]
      · simp [pthen, a2, b2, hit, pcmpL_eq]
      · simp [pthen]

theorem nodePcmp_over (o : α → α → (Option Ordering)) : ∀ (L : Nat) {a b : Addr} {t u : RTree α}, h.Used a → h.Used b →
    Den h.val K a t → Den h.val K b u → pcmp o t u = some .eq → L < t.height → nodePcmp o L a b h = .err .fuel h := by
  intro L
  induction L with
  | zero => intro a b t u _ _ _ _ _ _; rfl
  | succ L ih =>
    intro a b t u ha hb ht hu he hk
    obtain ⟨a1, ⟨i, a2, a3⟩, a4, a5, a6⟩ := Den.parts hI ha ht
    obtain ⟨b1, ⟨j, b2, b3⟩, b4, _, b6⟩ := Den.parts hI hb hu
    cases t with
    | node d ks => cases u with
      | node e us =>
      simp only [data_node, kids_node, height, pcmp, pthen_eq] at *
      have hit := iterPcmp_over (f := nodePcmp o L) (o := o) (L := L) (k := i.len + 1) a3 b3 a4 b4
        (fun c t d u hc h1 hd h2 he => ⟨fun hl => by rw [nodePcmp_within hI o L (a6 c hc).1 (b6 d hd).1 h1 h2 hl, he],
          fun hl => ih (a6 c hc).1 (b6 d hd).1 h1 h2 he hl⟩) (by rw [a3.1]; omega) he.2 (by omega)
      simp only [nodePcmp, M.bind_apply, a1, b1, Res.bind_ok, he.1, a2, b2]
      exact hit

end

end Trees
