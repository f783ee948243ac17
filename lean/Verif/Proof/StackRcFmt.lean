import Verif.Proof.StackRcCmp
import Verif.Proof.StackFmt
/-
The stack that printing a shared node needs, whatever the writer does.
-/
namespace Trees
set_option linter.unusedSimpArgs false
set_option linter.unusedVariables false
variable {α β σ : Type}
open RTree

theorem tryW_fuel {h h' : Heap α} {c : M α (σ × Bool)} {f : σ → M α (σ × Bool)} (hc : c h = .err .fuel h') : tryW c f h = .err .fuel h' := by
  simp only [tryW, M.bind_apply, hc]; rfl

/-- What printing does with a limit of `L` at a node whose subtree has height `n`. -/
def RcFmtWithin (Q : Writer α σ) (G : Heap α) (L : Nat) (f : σ → M α (σ × Bool)) (ps : List (Piece α)) (n : Nat) : Prop :=
  ∀ (s : σ) (e : Addr → Nat), (n ≤ L → f s (bumpE e G) = ofOpt (emit Q ps s) (bumpE e G)) ∧
    (L < n → ∀ s', emit Q ps s = some (s', true) → ∃ h', f s (bumpE e G) = .err .fuel h')

section
variable {G : Heap α} {K : Addr → List Addr} {lk : Addr → Bool}

theorem forIterRcW_within (R : RdOK G K) {Q : Writer α σ} {L : Nat} {f : RcRef → σ → M α (σ × Bool)} {g : RTree (Addr × α) → List (Piece α)} :
    ∀ {cs : List Addr} {ts : List (RTree (Addr × α))} {i : RawIter} {k : Nat}, i.At G cs → DenL G.lab K cs ts →
    (∀ c ∈ cs, G.Used c ∧ G.IsVal c) →
    (∀ x c t, c ∈ cs → x.Is G c → Den G.lab K c t → RcFmtWithin Q G L (f x) (g t) t.height) →
    cs.length < k → RcFmtWithin Q G L (forIterRcW f k i) (ts.flatMap g) (heightL ts) := by
  intro cs
  induction cs with
  | nil =>
    intro ts i k hi ht hcu hf hk s e
    simp at ht; subst ht
    refine ⟨fun _ => ?_, fun hl => absurd hl (by simp [heightL])⟩
    exact forIterRcW_ok R hi (by simp) hcu (fun x c t s e hc => by cases hc) hk
  | cons c cs ih =>
    intro ts i k hi ht hcu hf hk s e
    obtain ⟨k, rfl⟩ : ∃ n, k = n + 1 := ⟨k - 1, by simp at hk; omega⟩
    obtain ⟨t, ts', rfl, ht1, ht2⟩ := DenL_cons_left.mp ht
    obtain ⟨x, i', hx, hi', e1⟩ := iterRcNext_cons (e := e) R hi (hcu c (by simp)).1 (hcu c (by simp)).2
    obtain ⟨f1, f2⟩ := hf x c t (by simp) hx ht1 s (upd e c (e c + 1))
    have ih' := fun s => ih (k := k) hi' ht2 (fun c hc => hcu c (by simp [hc])) (fun x c t hc => hf x c t (by simp [hc])) (by simp at hk; omega) s e
    simp only [forIterRcW, M.bind_apply, e1, Res.bind_ok, List.flatMap_cons, emit_append]
    by_cases hL : t.height ≤ L
    · have hw := withHandle_ok (o := emit Q (g t) s) (e := e) R hx (hcu c (by simp)).1 (f1 hL)
      simp only [tryW, M.bind_apply, hw]
      rcases hF : emit Q (g t) s with _ | ⟨s1, _ | _⟩
      · exact ⟨fun _ => rfl, fun _ s' hn => by simp [andThenW] at hn⟩
      · exact ⟨fun _ => rfl, fun _ s' hn => by simp [andThenW] at hn⟩
      · simp only [ofOpt_some, Res.bind_ok, if_true, andThenW]
        exact ⟨fun hl => (ih' s1).1 (by simp only [heightL] at hl; omega), fun hl s' hn => (ih' s1).2 (by simp only [heightL] at hl; omega) s' hn⟩
    · refine ⟨fun hl => absurd hl (by simp only [heightL]; omega), fun _ s' hn => ?_⟩
      rw [andThenW_true] at hn
      obtain ⟨s1, e2, -⟩ := hn
      obtain ⟨h', e3⟩ := f2 (by omega) s1 e2
      exact ⟨h', tryW_fuel (withHandle_fuel e3)⟩

theorem rcFmtW_within (P : Writer α σ) : ∀ (L : Nat) {r : RcRef} {a : Addr} {t : RTree (Addr × α)},
    RdOK G K → Locks lk G → r.Is G a → G.Used a → Den G.lab K a t →
    RcFmtWithin (P.locking lk) G L (rcFmtW P L r) (displayP looks t) t.height := by
  intro L
  induction L with
  | zero => intro r a t _ _ _ _ _ s e; exact ⟨fun hh => absurd (height_pos t) (by omega), fun _ _ _ => ⟨_, rfl⟩⟩
  | succ L ih =>
    intro r a t R lks hr ha ht s e
    obtain ⟨x, ts⟩ := t
    simp only [Den_node] at ht
    obtain ⟨x1, x2⟩ := Heap.lab_some.mp ht.1
    simp only [rcFmtW, M.bind_apply]
    have put : ∀ {h : Heap α} (p : Piece α) (hp : ∀ a, p ≠ .look a) (s : σ), putW P p s h = ofOpt (emit (P.locking lk) [p] s) h := by
      intro h p hp s; rw [emit_locking_one hp]; exact putW_ok P p s
    by_cases l1 : 0 ≤ G.borrow a
    · have l2 : lk a = false := by
        cases h : lk a with
        | false => rfl
        | true => exact absurd l1 ((lks a ha).mp h)
      have hI : Inv (bumpE e (G.bor a (G.borrow a + 1))) K := (R.inv.bor _ _).over _ _
      have hu : (bumpE e (G.bor a (G.borrow a + 1))).Used a := ha
      have q1 := hasNoChild_ok (h := bumpE e (G.bor a (G.borrow a + 1))) ha.1
      rw [hI.l.head a hu] at q1
      rw [withShared_read (f := hasNoChild) hr ha l1 q1]
      simp only [Res.bind_ok]
      have hd : ∀ s, withData r (fun d => putW P (.item d) s) (bumpE e G) = ofOpt (emit (P.locking lk) [.item x.2] s) (bumpE e G) := fun s =>
        withData_ok hr ha x2 l1 (put _ (by simp) s)
      cases hK : K a with
      | nil =>
        rw [hK] at ht
        have := ht.2
        simp at this
        subst this
        refine ⟨fun _ => ?_, fun hl => absurd hl (by simp [height, heightL])⟩
        rw [if_pos (show ([] : List Addr).head?.isNone = true from rfl), hd]
        rw [show displayP looks (node x []) = .look a :: [.item x.2] by simp [displayP, looks, x1], emit_look, l2]
        simp
      | cons c cs =>
        obtain ⟨i, i1, i2⟩ := iterRc_at (e := e) R hr ha l1
        obtain ⟨t, ts, rfl, -, -⟩ := DenL_cons_left.mp (hK ▸ ht.2)
        have hloop := fun s => forIterRcW_within (Q := P.locking lk) (L := L) (f := (fun c s => tryW (rcFmtW P L c s) fun s => putW P (.text [' ']) s))
          (g := (fun t => displayP looks t ++ [.text [' ']])) (k := i.len + 1) R i2 ht.2 R.kids (fun x c t hc hx ht => by
            intro s e
            obtain ⟨g1, g2⟩ := ih R lks hx (R.kids c hc).1 ht s e
            rw [emit_append]
            refine ⟨fun hl => tryW_ok (g1 hl) fun s => put _ (by simp) s, fun hl s' hn => ?_⟩
            rw [andThenW_true] at hn
            obtain ⟨s1, e2, -⟩ := hn
            obtain ⟨h', e3⟩ := g2 hl s1 e2
            exact ⟨h', tryW_fuel e3⟩) (by rw [i2.1]; omega) s e
        rw [if_neg (show ¬ (c :: cs).head?.isNone = true by simp)]
        rw [show displayP looks (node x (t :: ts)) = .look a :: ([.item x.2] ++ ([.text ['(', ' ']] ++ (displayPL looks (t :: ts) ++ [.text [')']]))) by
          simp [displayP, looks, x1], emit_look, l2]
        simp only [Bool.false_eq_true, if_false]
        rw [displayPL_eq]
        refine ⟨fun hl => ?_, fun hl s' hn => ?_⟩
        · rw [emit_append]
          refine tryW_ok (hd s) fun s => ?_
          rw [emit_append]
          refine tryW_ok (put _ (by simp) s) fun s => ?_
          simp only [M.bind_apply, i1, Res.bind_ok]
          rw [emit_append]
          exact tryW_ok ((hloop s).1 (by simp only [height] at hl; omega)) fun s => put _ (by simp) s
        · simp only [emit_append, andThenW_true] at hn
          obtain ⟨s1, e1, s2, e2, s3, e3, -⟩ := hn
          rw [tryW_go (s := s1) (by rw [hd, e1]; rfl), tryW_go (s := s2) (by rw [put _ (by simp), e2]; rfl)]
          simp only [M.bind_apply, i1, Res.bind_ok]
          obtain ⟨h', e5⟩ := (hloop s2).2 (by simp only [height] at hl; omega) s3 e3
          exact ⟨h', tryW_fuel e5⟩
    · have l2 := borrowShared_conflict (Z := fun _ => false) (e := e) hr ha l1
      simp only [withShared, M.bind_apply, l2, Res.bind_err]
      have l3 : lk a = true := (lks a ha).mpr l1
      rw [show displayP looks (node x ts) = .look a :: (displayP looks (node x ts)).tail by cases ts <;> simp [displayP, looks, x1], emit_look, l3]
      exact ⟨fun _ => rfl, fun _ _ h => by simp at h⟩

theorem rcDebugW_within (P : Writer α σ) (loc : Addr → Addr) : ∀ (L : Nat) {r : RcRef} {a : Addr} {t : RTree (Addr × α)},
    RdOK G K → Locks lk G → r.Is G a → G.Used a → Den G.lab K a t →
    RcFmtWithin (P.locking lk) G L (rcDebugW P loc L r) (debugP looks loc t) t.height := by
  intro L
  induction L with
  | zero => intro r a t _ _ _ _ _ s e; exact ⟨fun hh => absurd (height_pos t) (by omega), fun _ _ _ => ⟨_, rfl⟩⟩
  | succ L ih =>
    intro r a t R lks hr ha ht s e
    obtain ⟨x, ts⟩ := t
    simp only [Den_node] at ht
    obtain ⟨x1, x2⟩ := Heap.lab_some.mp ht.1
    simp only [rcDebugW, M.bind_apply]
    have put : ∀ {h : Heap α} (p : Piece α) (hp : ∀ a, p ≠ .look a) (s : σ), putW P p s h = ofOpt (emit (P.locking lk) [p] s) h := by
      intro h p hp s; rw [emit_locking_one hp]; exact putW_ok P p s
    have pad : ∀ s, putLocW P loc r s (bumpE e G) = ofOpt (emit (P.locking lk) [.text ['@'], .addr (loc a), .text [' ']] s) (bumpE e G) := by
      intro s
      simp only [putLocW, hr.at_eq, putAddrW]
      have := tryW_ok (h := bumpE e G) (put (.text ['@']) (by simp) s) (fun s => tryW_ok (put (.addr (loc a)) (by simp) s) (fun s => put (.text [' ']) (by simp) s))
      rw [this, emit_three]
    by_cases l1 : 0 ≤ G.borrow a
    · have l2 : lk a = false := by
        cases h : lk a with
        | false => rfl
        | true => exact absurd l1 ((lks a ha).mp h)
      have hI : Inv (bumpE e (G.bor a (G.borrow a + 1))) K := (R.inv.bor _ _).over _ _
      have hu : (bumpE e (G.bor a (G.borrow a + 1))).Used a := ha
      have q1 := hasNoChild_ok (h := bumpE e (G.bor a (G.borrow a + 1))) ha.1
      rw [hI.l.head a hu] at q1
      rw [withShared_read (f := hasNoChild) hr ha l1 q1]
      simp only [Res.bind_ok]
      have hd : ∀ s, withData r (fun d => putW P (.item d) s) (bumpE e G) = ofOpt (emit (P.locking lk) [.item x.2] s) (bumpE e G) := fun s =>
        withData_ok hr ha x2 l1 (put _ (by simp) s)
      cases hK : K a with
      | nil =>
        rw [hK] at ht
        have := ht.2
        simp at this
        subst this
        refine ⟨fun _ => ?_, fun hl => absurd hl (by simp [height, heightL])⟩
        rw [if_pos (show ([] : List Addr).head?.isNone = true from rfl)]
        rw [show debugP looks loc (node x []) = .look a :: ([.item x.2] ++ [.text ['@'], .addr (loc a), .text [' ']]) by simp [debugP, looks, x1], emit_look, l2]
        simp only [Bool.false_eq_true, if_false]
        rw [emit_append]
        exact tryW_ok (hd s) pad
      | cons c cs =>
        obtain ⟨i, i1, i2⟩ := iterRc_at (e := e) R hr ha l1
        obtain ⟨t, ts, rfl, -, -⟩ := DenL_cons_left.mp (hK ▸ ht.2)
        have hloop := fun s => forIterRcW_within (Q := P.locking lk) (L := L) (f := (rcDebugW P loc L))
          (g := (debugP looks loc)) (k := i.len + 1) R i2 ht.2 R.kids (fun x c t hc hx ht => ih R lks hx (R.kids c hc).1 ht) (by rw [i2.1]; omega) s e
        rw [if_neg (show ¬ (c :: cs).head?.isNone = true by simp)]
        rw [show debugP looks loc (node x (t :: ts)) = .look a :: ([.item x.2] ++ ([.text ['@'], .addr (loc a), .text [' ']] ++ ([.text ['(', ' ']] ++ (debugPL looks loc (t :: ts) ++ [.text [')']])))) by
          simp [debugP, looks, x1], emit_look, l2]
        simp only [Bool.false_eq_true, if_false]
        rw [debugPL_eq]
        refine ⟨fun hl => ?_, fun hl s' hn => ?_⟩
        · rw [emit_append]
          refine tryW_ok (hd s) fun s => ?_
          rw [emit_append]
          refine tryW_ok (pad s) fun s => ?_
          rw [emit_append]
          refine tryW_ok (put _ (by simp) s) fun s => ?_
          simp only [M.bind_apply, i1, Res.bind_ok]
          rw [emit_append]
          exact tryW_ok ((hloop s).1 (by simp only [height] at hl; omega)) fun s => put _ (by simp) s
        · simp only [emit_append, andThenW_true] at hn
          obtain ⟨s1, e1, s2, e2, s3, e3, s4, e4, -⟩ := hn
          rw [tryW_go (s := s1) (by rw [hd, e1]; rfl), tryW_go (s := s2) (by rw [pad, e2]; rfl), tryW_go (s := s3) (by rw [put _ (by simp), e3]; rfl)]
          simp only [M.bind_apply, i1, Res.bind_ok]
          obtain ⟨h', e5⟩ := (hloop s3).2 (by simp only [height] at hl; omega) s4 e4
          exact ⟨h', tryW_fuel e5⟩
    · have l2 := borrowShared_conflict (Z := fun _ => false) (e := e) hr ha l1
      simp only [withShared, M.bind_apply, l2, Res.bind_err]
      have l3 : lk a = true := (lks a ha).mpr l1
      rw [show debugP looks loc (node x ts) = .look a :: (debugP looks loc (node x ts)).tail by cases ts <;> simp [debugP, looks, x1], emit_look, l3]
      exact ⟨fun _ => rfl, fun _ _ h => by simp at h⟩

end
end Trees
