import Verif.Model.Format
import Verif.Proof.RcTraits
import Verif.Proof.Ident
/-
Printing with an arbitrary writer.
-/
namespace Trees
set_option linter.unusedSimpArgs false
set_option linter.unusedVariables false
variable {α σ : Type}
open RTree

/-- Go on unless there was an error. -/
def andThenW (o : Option (σ × Bool)) (f : σ → Option (σ × Bool)) : Option (σ × Bool) :=
  match o with
  | some (s, true) => f s
  | r => r

theorem emit_cons (P : Writer α σ) (p : Piece α) (ps : List (Piece α)) (s : σ) : emit P (p :: ps) s = andThenW (P p s) (emit P ps) := by
  simp only [emit, andThenW]
  rcases P p s with _ | ⟨s', _ | _⟩ <;> rfl

theorem emit_append (P : Writer α σ) : ∀ (ps qs : List (Piece α)) (s : σ), emit P (ps ++ qs) s = andThenW (emit P ps s) (emit P qs)
  | [], qs, s => rfl
  | p :: ps, qs, s => by
    rw [List.cons_append, emit_cons, emit_cons]
    rcases P p s with _ | ⟨s', _ | _⟩
    · rfl
    · rfl
    · exact emit_append P ps qs s'

theorem emit_one (P : Writer α σ) (p : Piece α) (s : σ) : emit P [p] s = P p s := by
  simp only [emit]; rcases P p s with _ | ⟨s', _ | _⟩ <;> rfl

theorem emit_three (P : Writer α σ) (p q r : Piece α) (s : σ) :
    emit P [p, q, r] s = andThenW (emit P [p] s) fun s => andThenW (emit P [q] s) (emit P [r]) := by
  rw [emit_cons, emit_one]
  congr 1
  funext s
  rw [emit_cons, emit_one]

theorem tryW_ok {h : Heap α} {c : M α (σ × Bool)} {f : σ → M α (σ × Bool)} {o : Option (σ × Bool)} {g : σ → Option (σ × Bool)}
    (hc : c h = ofOpt o h) (hf : ∀ s, f s h = ofOpt (g s) h) : tryW c f h = ofOpt (andThenW o g) h := by
  simp only [tryW, M.bind_apply, hc]
  rcases o with _ | ⟨s, _ | _⟩
  · rfl
  · rfl
  · exact hf s

theorem putW_ok {h : Heap α} (P : Writer α σ) (p : Piece α) (s : σ) : putW P p s h = ofOpt (emit P [p] s) h := by
  rw [emit_one]
  simp only [putW]
  rcases P p s with _ | r <;> rfl

theorem putAddrW_ok {h : Heap α} (P : Writer α σ) (a : Addr) (s : σ) :
    putAddrW P a s h = ofOpt (emit P [.text ['@'], .addr a, .text [' ']] s) h := by
  rw [putAddrW]
  have := tryW_ok (h := h) (putW_ok P (.text ['@']) s) (fun s => tryW_ok (putW_ok P (.addr a) s) (fun s => putW_ok P (.text [' ']) s))
  rw [this, emit_three]

theorem displayPL_eq (pre : Nat → List (Piece α)) : ∀ ts : List (RTree (Nat × α)), displayPL pre ts = ts.flatMap fun t => displayP pre t ++ [.text [' ']]
  | [] => rfl
  | t :: ts => by simp [displayPL, displayPL_eq pre ts]

theorem debugPL_eq (pre : Nat → List (Piece α)) (ad : Nat → Nat) : ∀ ts : List (RTree (Nat × α)), debugPL pre ad ts = ts.flatMap (debugP pre ad)
  | [] => rfl
  | t :: ts => by simp [debugPL, debugPL_eq pre ad ts]

/-! ### Exclusive nodes -/

section
variable {h : Heap α} {K : Addr → List Addr} {v : Addr → Option (Addr × α)}

theorem forIterW_ok {P : Writer α σ} {f : Addr → σ → M α (σ × Bool)} {g : RTree (Addr × α) → List (Piece α)} :
    ∀ {cs : List Addr} {ts : List (RTree (Addr × α))} {i : RawIter} {k : Nat} {s : σ}, i.At h cs → DenL v K cs ts →
    (∀ c t s, c ∈ cs → Den v K c t → f c s h = ofOpt (emit P (g t) s) h) → cs.length < k →
    forIterW f k i s h = ofOpt (emit P (ts.flatMap g) s) h := by
  intro cs
  induction cs with
  | nil =>
    intro ts i k s hi ht hf hk
    obtain ⟨k, rfl⟩ : ∃ n, k = n + 1 := ⟨k - 1, by simp at hk; omega⟩
    simp at ht; subst ht
    simp [forIterW, hi.next_nil, emit]
  | cons c cs ih =>
    intro ts i k s hi ht hf hk
    obtain ⟨k, rfl⟩ : ∃ n, k = n + 1 := ⟨k - 1, by simp at hk; omega⟩
    obtain ⟨t, ts', rfl, ht1, ht2⟩ := DenL_cons_left.mp ht
    obtain ⟨i', ei, hi'⟩ := hi.next_cons
    simp only [forIterW, M.bind_apply, ei, Res.bind_ok, List.flatMap_cons, emit_append]
    exact tryW_ok (hf c t s (by simp) ht1) fun s => ih hi' ht2 (fun c t s hc h1 => hf c t s (by simp [hc]) h1) (by simp at hk; omega)

variable (hI : Inv h K)
include hI

theorem nodeFmtW_ok (P : Writer α σ) : ∀ (k : Nat) {a : Addr} {t : RTree (Addr × α)} {s : σ}, h.Used a → Den h.lab K a t →
    (h.size a).descendants < k → nodeFmtW P k a s h = ofOpt (emit P (displayP (fun _ => []) t) s) h := by
  intro k
  induction k with
  | zero => intro a t s _ _ hk; omega
  | succ k ih =>
    intro a t s ha ht hk
    obtain ⟨x, ts⟩ := t
    simp only [Den_node] at ht
    obtain ⟨x1, x2⟩ := Heap.lab_some.mp ht.1
    have a1 := dataRef_ok ha.1 x2
    obtain ⟨i, a2, a3⟩ := iter_at hI ha
    have hh := hI.l.head a ha
    cases hK : K a with
    | nil =>
      rw [hK] at hh ht
      have := ht.2
      simp at this; subst this
      have : hasNoChild a h = .ok true h := by simp [hasNoChild, getHead, ha.1, hh]
      simp only [nodeFmtW, M.bind_apply, this, Res.bind_ok, if_true, a1, displayP, List.nil_append]
      exact putW_ok P _ s
    | cons c cs =>
      rw [hK] at hh
      have ht2 := ht.2
      rw [hK] at ht2
      obtain ⟨t, ts, rfl, _, _⟩ := DenL_cons_left.mp ht2
      have : hasNoChild a h = .ok false h := by simp [hasNoChild, getHead, ha.1, hh]
      simp only [nodeFmtW, M.bind_apply, this, Res.bind_ok, a1, Bool.false_eq_true, if_false]
      rw [show displayP (fun _ => []) (node x (t :: ts)) = [.item x.2] ++ ([.text ['(', ' ']] ++ (displayPL (fun _ => []) (t :: ts) ++ [.text [')']])) by
        simp [displayP], displayPL_eq, emit_append]
      refine tryW_ok (putW_ok P _ s) fun s => ?_
      rw [emit_append]
      refine tryW_ok (putW_ok P _ s) fun s => ?_
      simp only [M.bind_apply, a2, Res.bind_ok]
      rw [emit_append]
      refine tryW_ok (forIterW_ok a3 ht.2 (fun c t s hc h1 => ?_) (by rw [a3.1]; omega)) fun s => putW_ok P _ s
      rw [emit_append]
      exact tryW_ok (ih (hI.used_of_mem hc) h1 (by have := hI.desc_lt hc; omega)) fun s => putW_ok P _ s

theorem nodeDebugW_ok (P : Writer α σ) : ∀ (k : Nat) {a : Addr} {t : RTree (Addr × α)} {s : σ}, h.Used a → Den h.lab K a t →
    (h.size a).descendants < k → nodeDebugW P k a s h = ofOpt (emit P (debugP (fun _ => []) id t) s) h := by
  intro k
  induction k with
  | zero => intro a t s _ _ hk; omega
  | succ k ih =>
    intro a t s ha ht hk
    obtain ⟨x, ts⟩ := t
    simp only [Den_node] at ht
    obtain ⟨x1, x2⟩ := Heap.lab_some.mp ht.1
    have a1 := dataRef_ok ha.1 x2
    obtain ⟨i, a2, a3⟩ := iter_at hI ha
    have hh := hI.l.head a ha
    cases hK : K a with
    | nil =>
      rw [hK] at hh ht
      have := ht.2
      simp at this; subst this
      have : hasNoChild a h = .ok true h := by simp [hasNoChild, getHead, ha.1, hh]
      simp only [nodeDebugW, M.bind_apply, this, Res.bind_ok, if_true, a1]
      rw [show debugP (fun _ => []) id (node x []) = [.item x.2] ++ [.text ['@'], .addr a, .text [' ']] by simp [debugP, x1], emit_append]
      exact tryW_ok (putW_ok P _ s) fun s => putAddrW_ok P a s
    | cons c cs =>
      rw [hK] at hh
      have ht2 := ht.2
      rw [hK] at ht2
      obtain ⟨t, ts, rfl, _, _⟩ := DenL_cons_left.mp ht2
      have : hasNoChild a h = .ok false h := by simp [hasNoChild, getHead, ha.1, hh]
      simp only [nodeDebugW, M.bind_apply, this, Res.bind_ok, a1, Bool.false_eq_true, if_false]
      rw [show debugP (fun _ => []) id (node x (t :: ts)) = [.item x.2] ++ ([.text ['@'], .addr a, .text [' ']] ++ ([.text ['(', ' ']] ++
          (debugPL (fun _ => []) id (t :: ts) ++ [.text [')']]))) by simp [debugP, x1], debugPL_eq, emit_append]
      refine tryW_ok (putW_ok P _ s) fun s => ?_
      rw [emit_append]
      refine tryW_ok (putAddrW_ok P a s) fun s => ?_
      rw [emit_append]
      refine tryW_ok (putW_ok P _ s) fun s => ?_
      simp only [M.bind_apply, a2, Res.bind_ok]
      rw [emit_append]
      exact tryW_ok (forIterW_ok a3 ht.2 (fun c t s hc h1 => ih (hI.used_of_mem hc) h1 (by have := hI.desc_lt hc; omega)) (by rw [a3.1]; omega)) fun s => putW_ok P _ s

theorem displayForestW_ok (P : Writer α σ) {a : Addr} {ts : List (RTree (Addr × α))} {s : σ} (ha : h.Used a) (ht : DenL h.lab K (K a) ts) :
    displayForestW P a s h = ofOpt (emit P (displayForestP ts) s) h := by
  obtain ⟨i, a2, a3⟩ := iter_at hI ha
  have hh := hI.l.head a ha
  simp only [displayForestW, M.fuelled_apply, M.bind_apply]
  cases hK : K a with
  | nil =>
    rw [hK] at hh ht
    simp at ht; subst ht
    have : hasNoChild a h = .ok true h := by simp [hasNoChild, getHead, ha.1, hh]
    simp only [this, Res.bind_ok, if_true, displayForestP]
    exact putW_ok P _ s
  | cons c cs =>
    rw [hK] at hh
    have ht2 := ht
    rw [hK] at ht2
    obtain ⟨t, ts, rfl, _, _⟩ := DenL_cons_left.mp ht2
    have : hasNoChild a h = .ok false h := by simp [hasNoChild, getHead, ha.1, hh]
    simp only [this, Res.bind_ok, Bool.false_eq_true, if_false]
    rw [show displayForestP (t :: ts) = [.text ['(', ' ']] ++ (displayPL (fun _ => []) (t :: ts) ++ [.text [')']]) by simp [displayForestP], displayPL_eq, emit_append]
    refine tryW_ok (putW_ok P _ s) fun s => ?_
    simp only [M.bind_apply, a2, Res.bind_ok]
    rw [emit_append]
    refine tryW_ok (forIterW_ok a3 ht (fun c t s hc h1 => ?_) (by rw [a3.1]; omega)) fun s => putW_ok P _ s
    rw [emit_append]
    exact tryW_ok (nodeFmtW_ok hI P _ (hI.used_of_mem hc) h1 (by have := hI.desc_lt hc; simp only [depthFuel]; omega)) fun s => putW_ok P _ s

theorem debugForestW_ok (P : Writer α σ) {a : Addr} {ts : List (RTree (Addr × α))} {s : σ} (ha : h.Used a) (ht : DenL h.lab K (K a) ts) :
    debugForestW P a s h = ofOpt (emit P (debugForestP ts) s) h := by
  obtain ⟨i, a2, a3⟩ := iter_at hI ha
  have hh := hI.l.head a ha
  simp only [debugForestW, M.fuelled_apply, M.bind_apply]
  cases hK : K a with
  | nil =>
    rw [hK] at hh ht
    simp at ht; subst ht
    have : hasNoChild a h = .ok true h := by simp [hasNoChild, getHead, ha.1, hh]
    simp only [this, Res.bind_ok, if_true, debugForestP]
    exact putW_ok P _ s
  | cons c cs =>
    rw [hK] at hh
    have ht2 := ht
    rw [hK] at ht2
    obtain ⟨t, ts, rfl, _, _⟩ := DenL_cons_left.mp ht2
    have : hasNoChild a h = .ok false h := by simp [hasNoChild, getHead, ha.1, hh]
    simp only [this, Res.bind_ok, Bool.false_eq_true, if_false]
    rw [show debugForestP (t :: ts) = [.text ['(', ' ']] ++ (((t :: ts).flatMap fun t => debugP (fun _ => []) id t ++ [.text [' ']]) ++ [.text [')']]) from rfl, emit_append]
    refine tryW_ok (putW_ok P _ s) fun s => ?_
    simp only [M.bind_apply, a2, Res.bind_ok]
    rw [emit_append]
    refine tryW_ok (forIterW_ok a3 ht (fun c t s hc h1 => ?_) (by rw [a3.1]; omega)) fun s => putW_ok P _ s
    rw [emit_append]
    exact tryW_ok (nodeDebugW_ok hI P _ (hI.used_of_mem hc) h1 (by have := hI.desc_lt hc; simp only [depthFuel]; omega)) fun s => putW_ok P _ s

end

/-! ### Shared nodes -/

section
variable {K : Addr → List Addr} {lk : Addr → Bool}

/-- The pieces of a shared node: every node is looked at first. -/
abbrev looks (a : Nat) : List (Piece α) := [.look a]

theorem forIterRcW_ok {G : Heap α} (R : RdOK G K) {P : Writer α σ} {f : RcRef → σ → M α (σ × Bool)} {g : RTree (Addr × α) → List (Piece α)} :
    ∀ {cs : List Addr} {ts : List (RTree (Addr × α))} {i : RawIter} {k : Nat} {s : σ} {e : Addr → Nat},
    i.At G cs → DenL G.lab K cs ts → (∀ c ∈ cs, G.Used c ∧ G.IsVal c) →
    (∀ x c t s e, c ∈ cs → x.Is G c → Den G.lab K c t → f x s (bumpE e G) = ofOpt (emit P (g t) s) (bumpE e G)) →
    cs.length < k → forIterRcW f k i s (bumpE e G) = ofOpt (emit P (ts.flatMap g) s) (bumpE e G) := by
  intro cs
  induction cs with
  | nil =>
    intro ts i k s e hi ht hcu hf hk
    obtain ⟨k, rfl⟩ : ∃ n, k = n + 1 := ⟨k - 1, by simp at hk; omega⟩
    simp at ht; subst ht
    simp [forIterRcW, M.bind_apply, iterRcNext_nil hi, emit]
  | cons c cs ih =>
    intro ts i k s e hi ht hcu hf hk
    obtain ⟨k, rfl⟩ : ∃ n, k = n + 1 := ⟨k - 1, by simp at hk; omega⟩
    obtain ⟨t, ts', rfl, ht1, ht2⟩ := DenL_cons_left.mp ht
    obtain ⟨x, i', hx, hi', e1⟩ := iterRcNext_cons (e := e) R hi (hcu c (by simp)).1 (hcu c (by simp)).2
    simp only [forIterRcW, M.bind_apply, e1, Res.bind_ok, List.flatMap_cons, emit_append]
    have hw := withHandle_ok (o := emit P (g t) s) (e := e) R hx (hcu c (by simp)).1 (hf x c t s _ (by simp) hx ht1)
    simp only [tryW, M.bind_apply, hw]
    rcases hF : emit P (g t) s with _ | ⟨s', _ | _⟩
    · rfl
    · rfl
    · simp only [ofOpt_some, Res.bind_ok, if_true, andThenW]
      exact ih hi' ht2 (fun c hc => hcu c (by simp [hc])) (fun x c t s e hc => hf x c t s e (by simp [hc])) (by simp at hk; omega)

theorem emit_look {P : Writer α σ} {a : Nat} (ps : List (Piece α)) (s : σ) :
    emit (P.locking lk) (.look a :: ps) s = if lk a then none else emit (P.locking lk) ps s := by
  rw [emit_cons]
  simp only [Writer.locking]
  split <;> simp [andThenW]

theorem emit_locking_one {P : Writer α σ} {p : Piece α} (hp : ∀ a, p ≠ .look a) (s : σ) : emit (P.locking lk) [p] s = emit P [p] s := by
  rw [emit_one, emit_one]
  cases p <;> first | rfl | exact absurd rfl (hp _)

theorem rcFmtW_ok (P : Writer α σ) : ∀ (k : Nat) {G : Heap α} {e : Addr → Nat} {r : RcRef} {a : Addr} {t : RTree (Addr × α)} {s : σ},
    RdOK G K → Locks lk G → r.Is G a → G.Used a → Den G.lab K a t → (G.size a).descendants < k →
    rcFmtW P k r s (bumpE e G) = ofOpt (emit (P.locking lk) (displayP looks t) s) (bumpE e G) := by
  intro k
  induction k with
  | zero => intro G e r a t s _ _ _ _ _ hk; omega
  | succ k ih =>
    intro G e r a t s R L hr ha ht hk
    obtain ⟨x, ts⟩ := t
    simp only [Den_node] at ht
    obtain ⟨x1, x2⟩ := Heap.lab_some.mp ht.1
    simp only [rcFmtW, M.bind_apply]
    have put : ∀ {h : Heap α} (p : Piece α) (hp : ∀ a, p ≠ .look a) (s : σ), putW P p s h = ofOpt (emit (P.locking lk) [p] s) h := by
      intro h p hp s; rw [emit_locking_one hp]; exact putW_ok P p s
    by_cases l1 : 0 ≤ G.borrow a
    · have l2 : lk a = false := by
        cases h : lk a with
        | false => rfl
        | true => exact absurd l1 ((L a ha).mp h)
      have hI : Inv (bumpE e (G.bor a (G.borrow a + 1))) K := (R.inv.bor _ _).over _ _
      have hu : (bumpE e (G.bor a (G.borrow a + 1))).Used a := ha
      have q1 := hasNoChild_ok (h := bumpE e (G.bor a (G.borrow a + 1))) ha.1
      rw [hI.l.head a hu] at q1
      rw [withShared_read (f := hasNoChild) hr ha l1 q1]
      simp only [Res.bind_ok]
      have hd : ∀ s, withData r (fun d => putW P (.item d) s) (bumpE e G) = ofOpt (emit (P.locking lk) [.item x.2] s) (bumpE e G) := fun s =>
        withData_ok hr ha x2 l1 (put _ (by simp) s)
      cases hK : K a with
      | nil =>
        rw [hK] at ht
        have := ht.2
        simp at this
        subst this
        rw [if_pos (show ([] : List Addr).head?.isNone = true from rfl), hd]
        rw [show displayP looks (node x []) = .look a :: [.item x.2] by simp [displayP, looks, x1], emit_look, l2]
        simp
      | cons c cs =>
        obtain ⟨i, i1, i2⟩ := iterRc_at (e := e) R hr ha l1
        obtain ⟨t, ts, rfl, -, -⟩ := DenL_cons_left.mp (hK ▸ ht.2)
        rw [if_neg (show ¬ (c :: cs).head?.isNone = true by simp)]
        rw [show displayP looks (node x (t :: ts)) = .look a :: ([.item x.2] ++ ([.text ['(', ' ']] ++ (displayPL looks (t :: ts) ++ [.text [')']]))) by
          simp [displayP, looks, x1], emit_look, l2]
        simp only [Bool.false_eq_true, if_false]
        rw [displayPL_eq, emit_append]
        refine tryW_ok (hd s) fun s => ?_
        rw [emit_append]
        refine tryW_ok (put _ (by simp) s) fun s => ?_
        simp only [M.bind_apply, i1, Res.bind_ok]
        rw [emit_append]
        refine tryW_ok (forIterRcW_ok R i2 ht.2 R.kids (fun x c t s e hc hx ht => ?_) (by rw [i2.1]; omega)) fun s => put _ (by simp) s
        rw [emit_append]
        have := R.inv.desc_lt hc
        exact tryW_ok (ih R L hx (R.kids c hc).1 ht (by omega)) fun s => put _ (by simp) s
    · have l2 := borrowShared_conflict (Z := fun _ => false) (e := e) hr ha l1
      simp only [withShared, M.bind_apply, l2, Res.bind_err]
      have l3 : lk a = true := (L a ha).mpr l1
      rw [show displayP looks (node x ts) = .look a :: (displayP looks (node x ts)).tail by cases ts <;> simp [displayP, looks, x1], emit_look, l3]
      rfl

theorem rcDebugW_ok (P : Writer α σ) (loc : Addr → Addr) : ∀ (k : Nat) {G : Heap α} {e : Addr → Nat} {r : RcRef} {a : Addr} {t : RTree (Addr × α)} {s : σ},
    RdOK G K → Locks lk G → r.Is G a → G.Used a → Den G.lab K a t → (G.size a).descendants < k →
    rcDebugW P loc k r s (bumpE e G) = ofOpt (emit (P.locking lk) (debugP looks loc t) s) (bumpE e G) := by
  intro k
  induction k with
  | zero => intro G e r a t s _ _ _ _ _ hk; omega
  | succ k ih =>
    intro G e r a t s R L hr ha ht hk
    obtain ⟨x, ts⟩ := t
    simp only [Den_node] at ht
    obtain ⟨x1, x2⟩ := Heap.lab_some.mp ht.1
    simp only [rcDebugW, M.bind_apply]
    have put : ∀ {h : Heap α} (p : Piece α) (hp : ∀ a, p ≠ .look a) (s : σ), putW P p s h = ofOpt (emit (P.locking lk) [p] s) h := by
      intro h p hp s; rw [emit_locking_one hp]; exact putW_ok P p s
    have pad : ∀ s, putLocW P loc r s (bumpE e G) = ofOpt (emit (P.locking lk) [.text ['@'], .addr (loc a), .text [' ']] s) (bumpE e G) := by
      intro s
      simp only [putLocW, hr.at_eq, putAddrW]
      have := tryW_ok (h := bumpE e G) (put (.text ['@']) (by simp) s) (fun s => tryW_ok (put (.addr (loc a)) (by simp) s) (fun s => put (.text [' ']) (by simp) s))
      rw [this, emit_three]
    by_cases l1 : 0 ≤ G.borrow a
    · have l2 : lk a = false := by
        cases h : lk a with
        | false => rfl
        | true => exact absurd l1 ((L a ha).mp h)
      have hI : Inv (bumpE e (G.bor a (G.borrow a + 1))) K := (R.inv.bor _ _).over _ _
      have hu : (bumpE e (G.bor a (G.borrow a + 1))).Used a := ha
      have q1 := hasNoChild_ok (h := bumpE e (G.bor a (G.borrow a + 1))) ha.1
      rw [hI.l.head a hu] at q1
      rw [withShared_read (f := hasNoChild) hr ha l1 q1]
      simp only [Res.bind_ok]
      have hd : ∀ s, withData r (fun d => putW P (.item d) s) (bumpE e G) = ofOpt (emit (P.locking lk) [.item x.2] s) (bumpE e G) := fun s =>
        withData_ok hr ha x2 l1 (put _ (by simp) s)
      cases hK : K a with
      | nil =>
        rw [hK] at ht
        have := ht.2
        simp at this
        subst this
        rw [if_pos (show ([] : List Addr).head?.isNone = true from rfl)]
        rw [show debugP looks loc (node x []) = .look a :: ([.item x.2] ++ [.text ['@'], .addr (loc a), .text [' ']]) by simp [debugP, looks, x1], emit_look, l2]
        simp only [Bool.false_eq_true, if_false]
        rw [emit_append]
        exact tryW_ok (hd s) pad
      | cons c cs =>
        obtain ⟨i, i1, i2⟩ := iterRc_at (e := e) R hr ha l1
        obtain ⟨t, ts, rfl, -, -⟩ := DenL_cons_left.mp (hK ▸ ht.2)
        rw [if_neg (show ¬ (c :: cs).head?.isNone = true by simp)]
        rw [show debugP looks loc (node x (t :: ts)) = .look a :: ([.item x.2] ++ ([.text ['@'], .addr (loc a), .text [' ']] ++ ([.text ['(', ' ']] ++
          (debugPL looks loc (t :: ts) ++ [.text [')']])))) by simp [debugP, looks, x1], emit_look, l2]
        simp only [Bool.false_eq_true, if_false]
        rw [debugPL_eq, emit_append]
        refine tryW_ok (hd s) fun s => ?_
        rw [emit_append]
        refine tryW_ok (pad s) fun s => ?_
        rw [emit_append]
        refine tryW_ok (put _ (by simp) s) fun s => ?_
        simp only [M.bind_apply, i1, Res.bind_ok]
        rw [emit_append]
        exact tryW_ok (forIterRcW_ok R i2 ht.2 R.kids (fun x c t s e hc hx ht => by
          have := R.inv.desc_lt hc
          exact ih R L hx (R.kids c hc).1 ht (by omega)) (by rw [i2.1]; omega)) fun s => put _ (by simp) s
    · have l2 := borrowShared_conflict (Z := fun _ => false) (e := e) hr ha l1
      simp only [withShared, M.bind_apply, l2, Res.bind_err]
      have l3 : lk a = true := (L a ha).mpr l1
      rw [show debugP looks loc (node x ts) = .look a :: (debugP looks loc (node x ts)).tail by cases ts <;> simp [debugP, looks, x1], emit_look, l3]
      rfl

end

/-! ### Texts -/

theorem emit_prefix {sh : α → List Char} {ad : Nat → List Char} {P : Writer α (List Char)} (hP : Appends sh ad P) :
    ∀ (ps : List (Piece α)) (s : List Char) (r : List Char × Bool), emit P ps s = some r →
    ∃ w, w <+: ps.flatMap (Piece.chars sh ad) ∧ r.1 = s ++ w ∧ (r.2 = true → w = ps.flatMap (Piece.chars sh ad))
  | [], s, r, h => by simp [emit] at h; subst h; exact ⟨[], by simp, by simp, by simp⟩
  | p :: ps, s, r, h => by
    rw [emit_cons] at h
    rcases hp : P p s with _ | ⟨s', _ | _⟩
    · rw [hp] at h; simp [andThenW] at h
    · rw [hp] at h
      simp [andThenW] at h; subst h
      obtain ⟨w, h1, h2, h3⟩ := hP p s _ hp
      exact ⟨w, h1.trans (by simp), h2, by simp⟩
    · rw [hp] at h
      simp only [andThenW] at h
      obtain ⟨w, h1, h2, h3⟩ := hP p s _ hp
      obtain ⟨w', g1, g2, g3⟩ := emit_prefix hP ps s' r h
      rw [h3 rfl] at h2
      refine ⟨p.chars sh ad ++ w', ?_, ?_, ?_⟩
      · rw [List.flatMap_cons]; exact List.prefix_append_right_inj _ |>.mpr g1
      · rw [g2]; simp at h2; rw [h2]; simp
      · intro hr; rw [g3 hr]; simp

mutual
theorem display_text (sh : α → List Char) (ad : Nat → List Char) : ∀ t : RTree (Nat × α),
    (displayP (fun _ => []) t).flatMap (Piece.chars sh ad) = render sh t.plain
  | node x [] => by simp [displayP, Piece.chars, plain, RTree.map, RTree.mapL, render]
  | node x (t :: ts) => by
    have := display_textL sh ad (t :: ts)
    simp only [displayP, List.nil_append, List.flatMap_append, this]
    rw [show (node x (t :: ts)).plain = node x.2 (t.plain :: mapL Prod.snd ts) by simp [RTree.plain, RTree.map, RTree.mapL], renderL_cons']
    simp [Piece.chars, RTree.mapL, plain]
theorem display_textL (sh : α → List Char) (ad : Nat → List Char) : ∀ ts : List (RTree (Nat × α)),
    (displayPL (fun _ => []) ts).flatMap (Piece.chars sh ad) = renderL sh (mapL Prod.snd ts)
  | [] => by simp [displayPL, RTree.mapL, renderL]
  | t :: ts => by
    have := display_text sh ad t
    simp only [displayPL, List.flatMap_append, this, display_textL sh ad ts]
    simp [Piece.chars, RTree.mapL, renderL, plain]
end

end Trees
