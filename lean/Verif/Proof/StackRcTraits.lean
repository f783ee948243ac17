import Verif.Proof.RcTraits
import Verif.Proof.Stack
/-
The stack that hashing and printing a shared node need.
-/
namespace Trees
set_option linter.unusedSimpArgs false
set_option linter.unusedVariables false
variable {α β σ : Type}
open RTree

/-- What a recursive function that reads through handles does with a limit of `L`, at a node whose subtree has height `n`. -/
def RcWithin (G : Heap α) (L : Nat) (f : σ → M α σ) (F : σ → Option σ) (n : Nat) : Prop :=
  ∀ (s : σ) (e : Addr → Nat), (n ≤ L → f s (bumpE e G) = ofOpt (F s) (bumpE e G)) ∧
    (L < n → F s ≠ none → ∃ h', f s (bumpE e G) = .err .fuel h')

theorem withHandle_fuel {r : RcRef} {c : M α β} {h h' : Heap α} (hc : c h = .err .fuel h') : withHandle r c h = .err .fuel h' := by
  simp only [withHandle, finally_, hc]

section
variable {G : Heap α} {K : Addr → List Addr} {lk : Addr → Bool}

theorem forIterRc_within (R : RdOK G K) {L : Nat} {f : RcRef → σ → M α σ} {F : RTree (Addr × α) → σ → Option σ} :
    ∀ {cs : List Addr} {ts : List (RTree (Addr × α))} {i : RawIter} {k : Nat}, i.At G cs → DenL G.lab K cs ts →
    (∀ c ∈ cs, G.Used c ∧ G.IsVal c) →
    (∀ x c t, c ∈ cs → x.Is G c → Den G.lab K c t → RcWithin G L (f x) (F t) t.height) →
    cs.length < k → RcWithin G L (forIterRc f k i) (foldOL F ts) (heightL ts) := by
  intro cs
  induction cs with
  | nil =>
    intro ts i k hi ht hcu hf hk s e
    simp at ht; subst ht
    refine ⟨fun _ => ?_, fun hl => absurd hl (by simp [heightL])⟩
    exact forIterRc_ok R hi (by simp) hcu (fun x c t s e hc => by cases hc) hk
  | cons c cs ih =>
    intro ts i k hi ht hcu hf hk s e
    obtain ⟨k, rfl⟩ : ∃ n, k = n + 1 := ⟨k - 1, by simp at hk; omega⟩
    obtain ⟨t, ts', rfl, ht1, ht2⟩ := DenL_cons_left.mp ht
    obtain ⟨x, i', hx, hi', e1⟩ := iterRcNext_cons (e := e) R hi (hcu c (by simp)).1 (hcu c (by simp)).2
    obtain ⟨f1, f2⟩ := hf x c t (by simp) hx ht1 s (upd e c (e c + 1))
    have ih' := fun s => ih (k := k) hi' ht2 (fun c hc => hcu c (by simp [hc])) (fun x c t hc => hf x c t (by simp [hc])) (by simp at hk; omega) s e
    simp only [forIterRc, M.bind_apply, e1, Res.bind_ok]
    by_cases hL : t.height ≤ L
    · rw [withHandle_ok (o := F t s) R hx (hcu c (by simp)).1 (f1 hL)]
      rcases hF : F t s with _ | s'
      · refine ⟨fun _ => by simp [foldOL, hF], fun _ hn => absurd (by simp [foldOL, hF]) hn⟩
      · simp only [ofOpt_some, Res.bind_ok, foldOL, hF, Option.bind_some]
        exact ⟨fun hl => (ih' s').1 (by simp only [heightL] at hl; omega), fun hl hn => (ih' s').2 (by simp only [heightL] at hl; omega) hn⟩
    · refine ⟨fun hl => absurd hl (by simp only [heightL]; omega), fun _ hn => ?_⟩
      have hn' : F t s ≠ none := fun h0 => hn (by simp [foldOL, h0])
      obtain ⟨h', e2⟩ := f2 (by omega) hn'
      exact ⟨h', by rw [withHandle_fuel e2]; rfl⟩

theorem rcHash_within (hs : α → σ → σ) : ∀ (L : Nat) {r : RcRef} {a : Addr} {t : RTree (Addr × α)},
    RdOK G K → Locks lk G → r.Is G a → G.Used a → Den G.lab K a t → RcWithin G L (rcHash hs L r) (goV lk hs t.pre) t.height := by
  intro L
  induction L with
  | zero => intro r a t _ _ _ _ _ s e; exact ⟨fun hh => absurd (height_pos t) (by omega), fun _ _ => ⟨_, rfl⟩⟩
  | succ L ih =>
    intro r a t R lks hr ha ht s e
    obtain ⟨x, ts⟩ := t
    simp only [Den_node] at ht
    obtain ⟨x1, x2⟩ := Heap.lab_some.mp ht.1
    simp only [rcHash, M.bind_apply]
    by_cases l1 : 0 ≤ G.borrow a
    · have l2 : lk a = false := by
        cases h : lk a with
        | false => rfl
        | true => exact absurd l1 ((lks a ha).mp h)
      obtain ⟨i, i1, i2⟩ := iterRc_at (e := e) R hr ha l1
      rw [withData_ok (o := some (hs x.2 s)) hr ha x2 l1 rfl]
      simp only [ofOpt_some, Res.bind_ok, M.bind_apply, i1]
      have hloop := forIterRc_within (F := fun t s => goV lk hs t.pre s) (k := i.len + 1) R i2 ht.2 R.kids (fun x c t hc hx ht =>
        ih R lks hx (R.kids c hc).1 ht) (by rw [i2.1]; omega) (hs x.2 s) e
      rw [foldOL_go] at hloop
      have h1 : goV lk hs (node x ts).pre s = goV lk hs (preL ts) (hs x.2 s) := by
        simp only [goV, pre, List.any_cons, x1, l2, Bool.false_or, List.foldl_cons]
      rw [h1]
      exact ⟨fun hl => hloop.1 (by simp only [height] at hl; omega), fun hl hn => hloop.2 (by simp only [height] at hl; omega) hn⟩
    · rw [withData_locked hr ha l1]
      have h1 : goV lk hs (node x ts).pre s = none := by simp [goV, x1, (lks a ha).mpr l1]
      exact ⟨fun _ => by rw [h1]; rfl, fun _ hn => absurd h1 hn⟩

theorem rcFmt_within (sh : α → List Char) : ∀ (L : Nat) {r : RcRef} {a : Addr} {t : RTree (Addr × α)},
    RdOK G K → Locks lk G → r.Is G a → G.Used a → Den G.lab K a t →
    RcWithin G L (rcFmt sh L r) (fun o => if t.pre.any (fun x => lk x.1) then none else some (o ++ render sh t.plain)) t.height := by
  intro L
  induction L with
  | zero => intro r a t _ _ _ _ _ s e; exact ⟨fun hh => absurd (height_pos t) (by omega), fun _ _ => ⟨_, rfl⟩⟩
  | succ L ih =>
    intro r a t R lks hr ha ht o e
    obtain ⟨x, ts⟩ := t
    simp only [Den_node] at ht
    obtain ⟨x1, x2⟩ := Heap.lab_some.mp ht.1
    simp only [rcFmt, M.bind_apply]
    by_cases l1 : 0 ≤ G.borrow a
    · have l2 : lk a = false := by
        cases h : lk a with
        | false => rfl
        | true => exact absurd l1 ((lks a ha).mp h)
      have hI : Inv (bumpE e (G.bor a (G.borrow a + 1))) K := (R.inv.bor _ _).over _ _
      have hu : (bumpE e (G.bor a (G.borrow a + 1))).Used a := ha
      have q1 := hasNoChild_ok (h := bumpE e (G.bor a (G.borrow a + 1))) ha.1
      rw [hI.l.head a hu] at q1
      rw [withShared_read (f := hasNoChild) hr ha l1 q1]
      simp only [Res.bind_ok]
      cases hK : K a with
      | nil =>
        rw [hK] at ht
        have := ht.2
        simp at this
        subst this
        rw [if_pos (show ([] : List Addr).head?.isNone = true from rfl)]
        rw [withData_ok (o := some (o ++ sh x.2)) hr ha x2 l1 rfl]
        refine ⟨fun _ => by simp [x1, l2, RTree.plain, RTree.map, render], fun hl => absurd hl (by simp [height, heightL])⟩
      | cons c cs =>
        obtain ⟨i, i1, i2⟩ := iterRc_at (e := e) R hr ha l1
        obtain ⟨t, ts, rfl, -, -⟩ := DenL_cons_left.mp (hK ▸ ht.2)
        rw [if_neg (show ¬ (c :: cs).head?.isNone = true by simp)]
        simp only [M.bind_apply]
        rw [withData_ok (o := some (o ++ sh x.2)) hr ha x2 l1 rfl]
        simp only [ofOpt_some, Res.bind_ok, M.bind_apply, i1]
        have hloop := forIterRc_within (F := fun t o => if t.pre.any (fun x => lk x.1) then none else some (o ++ render sh t.plain ++ [' ']))
          (f := fun c o => do return (← rcFmt sh L c o) ++ [' ']) (L := L) (k := i.len + 1) R i2 ht.2 R.kids (by
            intro x c t hc hx ht s e
            obtain ⟨g1, g2⟩ := ih R lks hx (R.kids c hc).1 ht s e
            refine ⟨fun hl => ?_, fun hl hn => ?_⟩
            · simp only [M.bind_apply, g1 hl]
              split <;> simp
            · obtain ⟨h', e2⟩ := g2 hl (by intro h0; apply hn; revert h0; split <;> simp)
              exact ⟨h', by simp only [M.bind_apply, e2, Res.bind_err]⟩) (by rw [i2.1]; omega) (o ++ sh x.2 ++ ['(', ' ']) e
        rw [foldOL_render] at hloop
        simp only [pre, List.any_cons, x1, l2, Bool.false_or]
        by_cases h1 : (preL (t :: ts)).any (fun x => lk x.1) = true
        · simp only [h1, if_true] at hloop ⊢
          exact ⟨fun hl => by rw [hloop.1 (by simp only [height] at hl; omega)]; rfl, fun _ hn => absurd rfl hn⟩
        · simp only [h1, if_false, Bool.false_eq_true] at hloop ⊢
          refine ⟨fun hl => ?_, fun hl _ => ?_⟩
          · rw [hloop.1 (by simp only [height] at hl; omega)]
            simp only [ofOpt_some, Res.bind_ok, M.pure_apply]
            rw [show (node x (t :: ts)).plain = node x.2 (t.plain :: mapL Prod.snd ts) by simp [RTree.plain, RTree.map, RTree.mapL]]
            rw [renderL_cons']
            simp [RTree.plain, RTree.mapL]
          · obtain ⟨h', e2⟩ := hloop.2 (by simp only [height] at hl; omega) (by simp)
            exact ⟨h', by rw [e2]; rfl⟩
    · have l2 := borrowShared_conflict (Z := fun _ => false) (e := e) hr ha l1
      simp only [withShared, M.bind_apply, l2, Res.bind_err]
      have h1 : (node x ts).pre.any (fun x => lk x.1) = true := by simp [x1, (lks a ha).mpr l1]
      simp only [h1, if_true]
      exact ⟨fun _ => rfl, fun _ hn => absurd rfl hn⟩

end
end Trees
