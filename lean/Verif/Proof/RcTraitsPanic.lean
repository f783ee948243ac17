import Verif.Model.RcTraitsPanic
import Verif.Spec.SharedPanic
import Verif.Proof.RcTraits
/-
Comparison, hashing and printing of shared nodes, with user code that panics.
-/
namespace Trees
set_option linter.unusedSimpArgs false
set_option linter.unusedVariables false
variable {α β γ σ : Type}
open RTree

@[simp] theorem user_apply (o : Option β) (h : Heap α) : user o h = ofOpt o h := by cases o <;> rfl

theorem eqPL_eq {ι : Type} (lk : ι → Bool) (eq : α → α → Option Bool) : ∀ ts us : List (RTree (ι × α)), eqPL lk eq ts us = eqOL (eqP lk eq) ts us
  | [], [] => by simp [eqPL, eqOL]
  | [], _ :: _ => by simp [eqPL, eqOL]
  | _ :: _, [] => by simp [eqPL, eqOL]
  | t :: ts, u :: us => by
    simp only [eqPL, eqOL, eqPL_eq lk eq ts us]
    rcases eqP lk eq t u with _ | _ | _ <;> rfl

theorem cmpPL_eq {ι : Type} (lk : ι → Bool) (c : α → α → Option Ordering) : ∀ ts us : List (RTree (ι × α)), cmpPL lk c ts us = cmpOL (cmpP lk c) ts us
  | [], [] => by simp [cmpPL, cmpOL]
  | [], _ :: _ => by simp [cmpPL, cmpOL]
  | _ :: _, [] => by simp [cmpPL, cmpOL]
  | t :: ts, u :: us => by
    simp only [cmpPL, cmpOL, cmpPL_eq lk c ts us]
    rcases cmpP lk c t u with _ | _ | _ | _ <;> rfl

theorem pcmpPL_eq {ι : Type} (lk : ι → Bool) (c : α → α → Option (Option Ordering)) : ∀ ts us : List (RTree (ι × α)),
    pcmpPL lk c ts us = pcmpOL (pcmpP lk c) ts us
  | [], [] => by simp [pcmpPL, pcmpOL]
  | [], _ :: _ => by simp [pcmpPL, pcmpOL]
  | _ :: _, [] => by simp [pcmpPL, pcmpOL]
  | t :: ts, u :: us => by
    simp only [pcmpPL, pcmpOL, pcmpPL_eq lk c ts us]
    rcases pcmpP lk c t u with _ | _ | _ | _ | _ <;> rfl

theorem hashP_append {ι : Type} (lk : ι → Bool) (hs : α → σ → Option σ) : ∀ (l l' : List (ι × α)) (s : σ),
    hashP lk hs (l ++ l') s = (hashP lk hs l s).bind (hashP lk hs l')
  | [], l', s => rfl
  | x :: l, l', s => by
    simp only [List.cons_append, hashP]
    split
    · rfl
    · cases hs x.2 s with
      | none => rfl
      | some s' => exact hashP_append lk hs l l' s'

theorem foldOL_hash {ι : Type} (lk : ι → Bool) (hs : α → σ → Option σ) : ∀ (ts : List (RTree (ι × α))) (s : σ),
    foldOL (fun t s => hashP lk hs t.pre s) ts s = hashP lk hs (preL ts) s
  | [], s => rfl
  | t :: ts, s => by
    simp only [foldOL, preL, hashP_append]
    congr 1
    funext s'
    exact foldOL_hash lk hs ts s'

section
variable {K : Addr → List Addr} {lk : Addr → Bool}

theorem rcEqP_ok (eq : α → α → Option Bool) : ∀ (k : Nat) {G : Heap α} {e : Addr → Nat} {r q : RcRef} {a b : Addr} {t u : RTree (Addr × α)},
    RdOK G K → Locks lk G → r.Is G a → G.Used a → q.Is G b → G.Used b → Den G.lab K a t → Den G.lab K b u → (G.size a).descendants < k →
    rcEqP eq k r q (bumpE e G) = ofOpt (eqP lk eq t u) (bumpE e G) := by
  intro k
  induction k with
  | zero => intro G e r q a b t u _ _ _ _ _ _ _ _ hk; omega
  | succ k ih =>
    intro G e r q a b t u R L hr ha hq hb ht hu hk
    obtain ⟨x, ts⟩ := t
    obtain ⟨y, us⟩ := u
    simp only [Den_node] at ht hu
    obtain ⟨x1, x2⟩ := Heap.lab_some.mp ht.1
    obtain ⟨y1, y2⟩ := Heap.lab_some.mp hu.1
    have hd := both_ok (e := e) L hr ha x2 hq hb y2 (f := fun d e => (user (eq d e) : M α Bool)) (o := eq x.2 y.2) (by intros; exact user_apply _ _)
    simp only [rcEqP, M.bind_apply]
    rw [hd]
    simp only [eqP, x1, y1]
    by_cases hl : (lk a || lk b) = true
    · simp [hl]
    · rw [if_neg hl, if_neg hl]
      have l1 : 0 ≤ G.borrow a := by
        by_contra h; exact hl (by rw [(L a ha).mpr h]; rfl)
      have l2 : 0 ≤ G.borrow b := by
        by_contra h; exact hl (by rw [(L b hb).mpr h]; simp)
      rcases he : eq x.2 y.2 with _ | _ | _
      · simp
      · simp
      · obtain ⟨i, i1, i2⟩ := iterRc_at (e := e) R hr ha l1
        obtain ⟨j, j1, j2⟩ := iterRc_at (e := e) R hq hb l2
        simp only [ofOpt_some, Res.bind_ok, if_true, M.bind_apply, i1, j1]
        rw [eqPL_eq]
        refine iterEqRc_ok R i2 j2 ht.2 hu.2 R.kids R.kids ?_ (by rw [i2.1]; omega)
        intro x y c t d u e hc hx ht hd hy hu
        have := R.inv.desc_lt hc
        exact ih R L hx (R.kids c hc).1 hy (R.kids d hd).1 ht hu (by omega)

theorem rcNeP_ok (eq ne : α → α → Option Bool) {k : Nat} {G : Heap α} {e : Addr → Nat} {r q : RcRef} {a b : Addr} {t u : RTree (Addr × α)}
    (R : RdOK G K) (L : Locks lk G) (hr : r.Is G a) (ha : G.Used a) (hq : q.Is G b) (hb : G.Used b) (ht : Den G.lab K a t) (hu : Den G.lab K b u)
    (hk : (G.size a).descendants ≤ k) : rcNeP eq ne k r q (bumpE e G) = ofOpt (neP lk eq ne t u) (bumpE e G) := by
  obtain ⟨x, ts⟩ := t
  obtain ⟨y, us⟩ := u
  simp only [Den_node] at ht hu
  obtain ⟨x1, x2⟩ := Heap.lab_some.mp ht.1
  obtain ⟨y1, y2⟩ := Heap.lab_some.mp hu.1
  have hd := both_ok (e := e) L hr ha x2 hq hb y2 (f := fun d e => (user (ne d e) : M α Bool)) (o := ne x.2 y.2) (by intros; exact user_apply _ _)
  simp only [rcNeP, M.bind_apply]
  rw [hd]
  simp only [neP, data_node, kids_node, x1, y1]
  by_cases hl : (lk a || lk b) = true
  · simp [hl]
  · rw [if_neg hl, if_neg hl]
    have l1 : 0 ≤ G.borrow a := by
      by_contra h; exact hl (by rw [(L a ha).mpr h]; rfl)
    have l2 : 0 ≤ G.borrow b := by
      by_contra h; exact hl (by rw [(L b hb).mpr h]; simp)
    rcases he : ne x.2 y.2 with _ | _ | _
    · simp
    · obtain ⟨i, i1, i2⟩ := iterRc_at (e := e) R hr ha l1
      obtain ⟨j, j1, j2⟩ := iterRc_at (e := e) R hq hb l2
      simp only [ofOpt_some, Res.bind_ok, Bool.false_eq_true, if_false, M.bind_apply, i1, j1]
      rw [iterEqRc_ok (F := eqP lk eq) R i2 j2 ht.2 hu.2 R.kids R.kids (by
        intro x y c t d u e hc hx ht hd hy hu
        have := R.inv.desc_lt hc
        exact rcEqP_ok eq k R L hx (R.kids c hc).1 hy (R.kids d hd).1 ht hu (by omega)) (by rw [i2.1]; omega)]
      rw [eqPL_eq]
      cases eqOL (eqP lk eq) ts us <;> simp
    · simp

theorem rcCmpP_ok (c : α → α → Option Ordering) : ∀ (k : Nat) {G : Heap α} {e : Addr → Nat} {r q : RcRef} {a b : Addr} {t u : RTree (Addr × α)},
    RdOK G K → Locks lk G → r.Is G a → G.Used a → q.Is G b → G.Used b → Den G.lab K a t → Den G.lab K b u → (G.size a).descendants < k →
    rcCmpP c k r q (bumpE e G) = ofOpt (cmpP lk c t u) (bumpE e G) := by
  intro k
  induction k with
  | zero => intro G e r q a b t u _ _ _ _ _ _ _ _ hk; omega
  | succ k ih =>
    intro G e r q a b t u R L hr ha hq hb ht hu hk
    obtain ⟨x, ts⟩ := t
    obtain ⟨y, us⟩ := u
    simp only [Den_node] at ht hu
    obtain ⟨x1, x2⟩ := Heap.lab_some.mp ht.1
    obtain ⟨y1, y2⟩ := Heap.lab_some.mp hu.1
    simp only [rcCmpP, cmpP, x1, y1]
    refine both_ok L hr ha x2 hq hb y2 ?_
    intro G' RR el eu es hh L' l1 l2
    have R' := RR K R
    rw [← el] at ht hu
    have ha' : G'.Used a := by rw [eu]; exact ha
    have hb' : G'.Used b := by rw [eu]; exact hb
    simp only [M.bind_apply, user_apply]
    rcases he : c x.2 y.2 with _ | _ | _ | _
    · simp
    · simp
    · obtain ⟨i, i1, i2⟩ := iterRc_at (e := e) R' (hh _ _ hr) ha' l1
      obtain ⟨j, j1, j2⟩ := iterRc_at (e := e) R' (hh _ _ hq) hb' l2
      simp only [ofOpt_some, M.bind_apply, i1, j1, Res.bind_ok]
      rw [cmpPL_eq]
      refine iterCmpRc_ok R' i2 j2 ht.2 hu.2 R'.kids R'.kids ?_ (by rw [i2.1]; omega)
      intro x y c t d u e hc hx ht hd hy hu
      have := R'.inv.desc_lt hc
      rw [es] at this
      exact ih R' L' hx (R'.kids c hc).1 hy (R'.kids d hd).1 ht hu (by rw [es]; omega)
    · simp

theorem rcPcmpP_ok (pc : α → α → Option (Option Ordering)) : ∀ (k : Nat) {G : Heap α} {e : Addr → Nat} {r q : RcRef} {a b : Addr}
    {t u : RTree (Addr × α)},
    RdOK G K → Locks lk G → r.Is G a → G.Used a → q.Is G b → G.Used b → Den G.lab K a t → Den G.lab K b u → (G.size a).descendants < k →
    rcPcmpP pc k r q (bumpE e G) = ofOpt (pcmpP lk pc t u) (bumpE e G) := by
  intro k
  induction k with
  | zero => intro G e r q a b t u _ _ _ _ _ _ _ _ hk; omega
  | succ k ih =>
    intro G e r q a b t u R L hr ha hq hb ht hu hk
    obtain ⟨x, ts⟩ := t
    obtain ⟨y, us⟩ := u
    simp only [Den_node] at ht hu
    obtain ⟨x1, x2⟩ := Heap.lab_some.mp ht.1
    obtain ⟨y1, y2⟩ := Heap.lab_some.mp hu.1
    simp only [rcPcmpP, pcmpP, x1, y1]
    refine both_ok L hr ha x2 hq hb y2 ?_
    intro G' RR el eu es hh L' l1 l2
    have R' := RR K R
    rw [← el] at ht hu
    have ha' : G'.Used a := by rw [eu]; exact ha
    have hb' : G'.Used b := by rw [eu]; exact hb
    simp only [M.bind_apply, user_apply]
    rcases he : pc x.2 y.2 with _ | _ | _ | _ | _
    · simp
    · simp
    · simp
    · obtain ⟨i, i1, i2⟩ := iterRc_at (e := e) R' (hh _ _ hr) ha' l1
      obtain ⟨j, j1, j2⟩ := iterRc_at (e := e) R' (hh _ _ hq) hb' l2
      simp only [ofOpt_some, M.bind_apply, i1, j1, Res.bind_ok]
      rw [pcmpPL_eq]
      refine iterPcmpRc_ok R' i2 j2 ht.2 hu.2 R'.kids R'.kids ?_ (by rw [i2.1]; omega)
      intro x y c t d u e hc hx ht hd hy hu
      have := R'.inv.desc_lt hc
      rw [es] at this
      exact ih R' L' hx (R'.kids c hc).1 hy (R'.kids d hd).1 ht hu (by rw [es]; omega)
    · simp

theorem rcHashP_ok (hs : α → σ → Option σ) : ∀ (k : Nat) {G : Heap α} {e : Addr → Nat} {r : RcRef} {a : Addr} {t : RTree (Addr × α)} {s : σ},
    RdOK G K → Locks lk G → r.Is G a → G.Used a → Den G.lab K a t → (G.size a).descendants < k →
    rcHashP hs k r s (bumpE e G) = ofOpt (hashP lk hs t.pre s) (bumpE e G) := by
  intro k
  induction k with
  | zero => intro G e r a t s _ _ _ _ _ hk; omega
  | succ k ih =>
    intro G e r a t s R L hr ha ht hk
    obtain ⟨x, ts⟩ := t
    simp only [Den_node] at ht
    obtain ⟨x1, x2⟩ := Heap.lab_some.mp ht.1
    simp only [rcHashP, M.bind_apply, pre, hashP, x1]
    by_cases l1 : 0 ≤ G.borrow a
    · have l2 : lk a = false := by
        cases h : lk a with
        | false => rfl
        | true => exact absurd l1 ((L a ha).mp h)
      obtain ⟨i, i1, i2⟩ := iterRc_at (e := e) R hr ha l1
      rw [withData_ok (o := hs x.2 s) hr ha x2 l1 (user_apply _ _)]
      simp only [l2, Bool.false_eq_true, if_false]
      cases hs x.2 s with
      | none => simp
      | some s' =>
        simp only [ofOpt_some, Res.bind_ok, M.bind_apply, i1, Option.bind_some]
        rw [forIterRc_ok (F := fun t s => hashP lk hs t.pre s) R i2 ht.2 R.kids (by
          intro x c t s e hc hx ht
          have := R.inv.desc_lt hc
          exact ih R L hx (R.kids c hc).1 ht (by omega)) (by rw [i2.1]; omega)]
        rw [foldOL_hash]
    · rw [withData_locked hr ha l1]
      simp [(L a ha).mpr l1]

/-- Item by item until an error. -/
def foldOE {γ : Type} (F : γ → σ → Option (σ × Bool)) : List γ → σ → Option (σ × Bool)
  | [], s => some (s, true)
  | t :: ts, s => match F t s with
    | some (s, true) => foldOE F ts s
    | r => r

theorem forIterRcE_ok {G : Heap α} (R : RdOK G K) {f : RcRef → σ → M α (σ × Bool)} {F : RTree (Addr × α) → σ → Option (σ × Bool)} :
    ∀ {cs : List Addr} {ts : List (RTree (Addr × α))} {i : RawIter} {k : Nat} {s : σ} {e : Addr → Nat},
    i.At G cs → DenL G.lab K cs ts → (∀ c ∈ cs, G.Used c ∧ G.IsVal c) →
    (∀ x c t s e, c ∈ cs → x.Is G c → Den G.lab K c t → f x s (bumpE e G) = ofOpt (F t s) (bumpE e G)) →
    cs.length < k → forIterRcE f k i s (bumpE e G) = ofOpt (foldOE F ts s) (bumpE e G) := by
  intro cs
  induction cs with
  | nil =>
    intro ts i k s e hi ht hcu hf hk
    obtain ⟨k, rfl⟩ : ∃ n, k = n + 1 := ⟨k - 1, by simp at hk; omega⟩
    simp at ht; subst ht
    simp [forIterRcE, M.bind_apply, iterRcNext_nil hi, foldOE]
  | cons c cs ih =>
    intro ts i k s e hi ht hcu hf hk
    obtain ⟨k, rfl⟩ : ∃ n, k = n + 1 := ⟨k - 1, by simp at hk; omega⟩
    obtain ⟨t, ts', rfl, ht1, ht2⟩ := DenL_cons_left.mp ht
    obtain ⟨x, i', hx, hi', e1⟩ := iterRcNext_cons (e := e) R hi (hcu c (by simp)).1 (hcu c (by simp)).2
    simp only [forIterRcE, M.bind_apply, e1, Res.bind_ok]
    rw [withHandle_ok (o := F t s) R hx (hcu c (by simp)).1 (hf x c t s _ (by simp) hx ht1)]
    rcases hF : F t s with _ | ⟨s', _ | _⟩
    · simp [foldOE, hF]
    · simp [foldOE, hF]
    · simp only [ofOpt_some, Res.bind_ok, foldOE, hF]
      exact ih hi' ht2 (fun c hc => hcu c (by simp [hc])) (fun x c t s e hc => hf x c t s e (by simp [hc])) (by simp at hk; omega)

/-- One child and the blank after it. -/
def fmtStep {ι : Type} (lk : ι → Bool) (sh : α → Option (List Char × Bool)) (t : RTree (ι × α)) (o : List Char) : Option (List Char × Bool) :=
  (fmtP lk sh t o).map fun w => if w.2 then (w.1 ++ [' '], true) else w

theorem foldOE_fmt {ι : Type} (lk : ι → Bool) (sh : α → Option (List Char × Bool)) : ∀ (ts : List (RTree (ι × α))) (o : List Char),
    foldOE (fmtStep lk sh) ts o = fmtPL lk sh ts o
  | [], o => by simp [foldOE, fmtPL]
  | t :: ts, o => by
    simp only [foldOE, fmtPL, fmtStep]
    rcases fmtP lk sh t o with _ | ⟨w, _ | _⟩
    · rfl
    · rfl
    · exact foldOE_fmt lk sh ts _

theorem rcFmtP_ok (sh : α → Option (List Char × Bool)) : ∀ (k : Nat) {G : Heap α} {e : Addr → Nat} {r : RcRef} {a : Addr} {t : RTree (Addr × α)}
    {o : List Char}, RdOK G K → Locks lk G → r.Is G a → G.Used a → Den G.lab K a t → (G.size a).descendants < k →
    rcFmtP sh k r o (bumpE e G) = ofOpt (fmtP lk sh t o) (bumpE e G) := by
  intro k
  induction k with
  | zero => intro G e r a t s _ _ _ _ _ hk; omega
  | succ k ih =>
    intro G e r a t o R L hr ha ht hk
    obtain ⟨x, ts⟩ := t
    simp only [Den_node] at ht
    obtain ⟨x1, x2⟩ := Heap.lab_some.mp ht.1
    simp only [rcFmtP, M.bind_apply, fmtP, x1]
    by_cases l1 : 0 ≤ G.borrow a
    · have l2 : lk a = false := by
        cases h : lk a with
        | false => rfl
        | true => exact absurd l1 ((L a ha).mp h)
      have hI : Inv (bumpE e (G.bor a (G.borrow a + 1))) K := (R.inv.bor _ _).over _ _
      have hu : (bumpE e (G.bor a (G.borrow a + 1))).Used a := ha
      have q1 := hasNoChild_ok (h := bumpE e (G.bor a (G.borrow a + 1))) ha.1
      rw [hI.l.head a hu] at q1
      rw [withShared_read (f := hasNoChild) hr ha l1 q1]
      have wd : withData r (fun d => do
          let w ← user (sh d)
          return (o ++ w.1, w.2)) (bumpE e G) = ofOpt ((sh x.2).map fun w => (o ++ w.1, w.2)) (bumpE e G) := by
        refine withData_ok hr ha x2 l1 ?_
        simp only [M.bind_apply, user_apply]
        cases sh x.2 <;> rfl
      simp only [Res.bind_ok, l2, Bool.false_eq_true, if_false]
      cases hK : K a with
      | nil =>
        rw [hK] at ht
        have := ht.2
        simp at this
        subst this
        rw [if_pos (show ([] : List Addr).head?.isNone = true from rfl), wd]
        rcases sh x.2 with _ | ⟨w, _ | _⟩ <;> simp
      | cons c cs =>
        obtain ⟨i, i1, i2⟩ := iterRc_at (e := e) R hr ha l1
        obtain ⟨t, ts, rfl, -, -⟩ := DenL_cons_left.mp (hK ▸ ht.2)
        rw [if_neg (show ¬ (c :: cs).head?.isNone = true by simp)]
        simp only [M.bind_apply]
        rw [wd]
        rcases sh x.2 with _ | ⟨w, _ | _⟩
        · simp
        · simp
        · simp only [Option.map_some, ofOpt_some, Res.bind_ok, if_true, M.bind_apply, i1, List.isEmpty_cons, Bool.false_eq_true, if_false]
          rw [forIterRcE_ok (F := fmtStep lk sh) R i2 ht.2 R.kids (by
            intro x c t s e hc hx ht
            have := R.inv.desc_lt hc
            simp only [M.bind_apply, ih (o := s) (e := e) R L hx (R.kids c hc).1 ht (by omega), fmtStep]
            rcases fmtP lk sh t s with _ | ⟨w, _ | _⟩ <;> simp) (by rw [i2.1]; omega)]
          rw [foldOE_fmt]
          rcases fmtPL lk sh (t :: ts) (o ++ w ++ ['(', ' ']) with _ | ⟨w, _ | _⟩ <;> simp
    · have l2 := borrowShared_conflict (Z := fun _ => false) (e := e) hr ha l1
      simp only [withShared, M.bind_apply, l2, Res.bind_err]
      simp [(L a ha).mpr l1]

end
end Trees
