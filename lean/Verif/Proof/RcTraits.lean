import Verif.Model.RcTraits
import Verif.Spec.SharedOrder
import Verif.Proof.Traits
import Verif.Proof.RcGuard
/-
Comparison, hashing and printing of shared nodes.
-/
namespace Trees
set_option linter.unusedSimpArgs false
set_option linter.unusedVariables false
variable {α β γ σ : Type}
open RTree

/-- A result or a panic, nothing changed. -/
def ofOpt (o : Option β) (h : Heap α) : Res (Heap α) β :=
  match o with
  | some b => .ok b h
  | none => .err .panic h

@[simp] theorem ofOpt_some (b : β) (h : Heap α) : ofOpt (some b) h = .ok b h := rfl
@[simp] theorem ofOpt_none (h : Heap α) : ofOpt (none : Option β) h = .err .panic h := rfl

/-- What reading through handles needs. -/
structure RdOK (G : Heap α) (K : Addr → List Addr) : Prop where
  inv : Inv G K
  st : SInv G
  kv : ∀ a c, c ∈ K a → G.IsVal c

theorem RdOK.bor {G : Heap α} {K : Addr → List Addr} (R : RdOK G K) (a : Addr) (b : Int) : RdOK (G.bor a b) K :=
  ⟨R.inv.bor a b, ⟨R.st.liveB, R.st.vecB, R.st.cnt, R.st.pos, R.st.disj, R.st.owner, R.st.tight⟩, R.kv⟩

section
variable {G : Heap α} {K : Addr → List Addr} {e : Addr → Nat}

theorem guardShared_ok {r : RcRef} {a : Addr} {d : α} (hr : r.Is G a) (ha : G.Used a) (hv : G.val a = some d) (hb : 0 ≤ G.borrow a) :
    guardShared r (bumpE e G) = .ok a (bumpE e (G.bor a (G.borrow a + 1))) := by
  have h1 : dataRef a (bumpE e (G.bor a (G.borrow a + 1))) = .ok d (bumpE e (G.bor a (G.borrow a + 1))) := dataRef_ok ha.1 hv
  simp only [guardShared, M.bind_apply, borrowShared_ok hr ha hb, Res.bind_ok, onPanic, h1, M.pure_apply]

theorem withData_ok {r : RcRef} {a : Addr} {d : α} {f : α → M α β} {o : Option β} (hr : r.Is G a) (ha : G.Used a) (hv : G.val a = some d)
    (hb : 0 ≤ G.borrow a) (hf : f d (bumpE e (G.bor a (G.borrow a + 1))) = ofOpt o (bumpE e (G.bor a (G.borrow a + 1)))) :
    withData r f (bumpE e G) = ofOpt o (bumpE e G) := by
  have h1 : dataRef a (bumpE e (G.bor a (G.borrow a + 1))) = .ok d (bumpE e (G.bor a (G.borrow a + 1))) := dataRef_ok ha.1 hv
  have h2 : releaseShared a (bumpE e (G.bor a (G.borrow a + 1))) = .ok () (bumpE e G) := by
    refine (releaseShared_ok (h := bumpE e (G.bor a (G.borrow a + 1))) ha.1).trans ?_
    congr 1
    exact congrArg (bumpE e) bor_back
  simp only [withData, M.bind_apply, guardShared_ok hr ha hv hb, Res.bind_ok, finally_, h1, hf]
  cases o <;> simp [h2]

theorem withData_locked {r : RcRef} {a : Addr} {f : α → M α β} (hr : r.Is G a) (ha : G.Used a) (hb : ¬ 0 ≤ G.borrow a) :
    withData r f (bumpE e G) = .err .panic (bumpE e G) := by
  simp only [withData, guardShared, M.bind_apply, borrowShared_conflict hr ha hb, Res.bind_err]

theorem withHandle_ok {r : RcRef} {a : Addr} {c : M α β} {o : Option β} (R : RdOK G K) (hr : r.Is G a) (ha : G.Used a)
    (hf : c (bumpE (upd e a (e a + 1)) G) = ofOpt o (bumpE (upd e a (e a + 1)) G)) :
    withHandle r c (bumpE (upd e a (e a + 1)) G) = ofOpt o (bumpE e G) := by
  have h1 : dropHandle r (bumpE (upd e a (e a + 1)) G) = .ok () (bumpE e G) := by
    rw [dropHandle, M.fuelled_apply]
    refine (dropRc_more (Z := fun _ => false) R.st ha rfl hr (by simp) _).trans ?_
    congr 2
    rw [upd_upd]; exact upd_id (by simp)
  simp only [withHandle, finally_, hf]
  cases o <;> simp [h1]

theorem iterRcNext_nil {it : RawIter} (h : it.At G []) : iterRcNext it (bumpE e G) = .ok (none, it) (bumpE e G) := by
  have h' : it.next (bumpE e G) = .ok (none, it) (bumpE e G) := RawIter.At.next_nil (h := bumpE e G) h
  simp only [iterRcNext, M.bind_apply, h', Res.bind_ok, M.pure_apply]

theorem iterRcNext_cons (R : RdOK G K) {it : RawIter} {c : Addr} {cs : List Addr} (h : it.At G (c :: cs)) (hu : G.Used c) (hv : G.IsVal c) :
    ∃ x it', x.Is G c ∧ it'.At G cs ∧ iterRcNext it (bumpE e G) = .ok (some x, it') (bumpE (upd e c (e c + 1)) G) := by
  obtain ⟨it', e1, h1⟩ := RawIter.At.next_cons (h := bumpE e G) h
  obtain ⟨x, hx, e2⟩ := nodeRc_ok (Z := fun _ => false) (e := e) R.st hu hv rfl
  exact ⟨x, it', hx, h1, by simp only [iterRcNext, M.bind_apply, e1, Res.bind_ok, e2, M.pure_apply]⟩

theorem iterRc_at (R : RdOK G K) {r : RcRef} {a : Addr} (hr : r.Is G a) (ha : G.Used a) (hb : 0 ≤ G.borrow a) :
    ∃ it, iterRc r (bumpE e G) = .ok it (bumpE e G) ∧ it.At G (K a) := by
  have hI : Inv (bumpE e (G.bor a (G.borrow a + 1))) K := (R.inv.bor _ _).over _ _
  have hu : (bumpE e (G.bor a (G.borrow a + 1))).Used a := ha
  have q1 := hasNoChild_ok (h := bumpE e (G.bor a (G.borrow a + 1))) ha.1
  have q2 := front_ok (h := bumpE e (G.bor a (G.borrow a + 1))) ha.1
  have q3 := degree_len hI hu
  rw [hI.l.head a hu] at q1 q2
  refine ⟨⟨(K a).head?, (K a).length⟩, withShared_read hr ha hb ?_, rfl, fun _ => rfl, fun c hc => (R.inv.used_of_mem hc).1, none, none, R.inv.l.links a ha⟩
  simp only [M.bind_apply, q1, Res.bind_ok]
  cases hK : K a with
  | nil => simp
  | cons c cs =>
    rw [hK] at q2 q3
    simp [M.bind_apply, q2, Res.bind_ok, q3, M.pure_apply]

/-! ### Iteration -/

/-- Compare item by item; `stop` says that the comparison goes on. -/
def eqOL {γ : Type} (F : γ → γ → Option Bool) : List γ → List γ → Option Bool
  | [], [] => some true
  | t :: ts, u :: us => match F t u with
    | some true => eqOL F ts us
    | r => r
  | _, _ => some false

def cmpOL {γ : Type} (F : γ → γ → Option Ordering) : List γ → List γ → Option Ordering
  | [], [] => some .eq
  | [], _ :: _ => some .lt
  | _ :: _, [] => some .gt
  | t :: ts, u :: us => match F t u with
    | some .eq => cmpOL F ts us
    | r => r

def pcmpOL {γ : Type} (F : γ → γ → Option (Option Ordering)) : List γ → List γ → Option (Option Ordering)
  | [], [] => some (some .eq)
  | [], _ :: _ => some (some .lt)
  | _ :: _, [] => some (some .gt)
  | t :: ts, u :: us => match F t u with
    | some (some .eq) => pcmpOL F ts us
    | r => r

def foldOL {γ : Type} (F : γ → σ → Option σ) : List γ → σ → Option σ
  | [], s => some s
  | t :: ts, s => (F t s).bind (foldOL F ts)

/-- Both iterators have yielded a node: the comparison, with the drops of the handles. -/
theorem pair_ok (R : RdOK G K) {f : RcRef → RcRef → M α β} {o : Option β} {x y : RcRef} {d : Addr} {j' : RawIter}
    (hy : y.Is G d) (hd : G.Used d) (hf : ∀ e, f x y (bumpE e G) = ofOpt o (bumpE e G)) :
    (withHandle y (do return (← f x y, j')) : M α (β × RawIter)) (bumpE (upd e d (e d + 1)) G) =
      ofOpt (o.map fun b => (b, j')) (bumpE e G) := by
  refine withHandle_ok R hy hd ?_
  simp only [M.bind_apply, hf]
  cases o <;> simp

theorem iterEqRc_ok (R : RdOK G K) {f : RcRef → RcRef → M α Bool} {F : RTree (Addr × α) → RTree (Addr × α) → Option Bool} :
    ∀ {cs ds : List Addr} {ts us : List (RTree (Addr × α))} {i j : RawIter} {k : Nat} {e : Addr → Nat},
    i.At G cs → j.At G ds → DenL G.lab K cs ts → DenL G.lab K ds us → (∀ c ∈ cs, G.Used c ∧ G.IsVal c) → (∀ c ∈ ds, G.Used c ∧ G.IsVal c) →
    (∀ x y c t d u e, c ∈ cs → x.Is G c → Den G.lab K c t → d ∈ ds → y.Is G d → Den G.lab K d u → f x y (bumpE e G) = ofOpt (F t u) (bumpE e G)) →
    cs.length < k → iterEqRc f k i j (bumpE e G) = ofOpt (eqOL F ts us) (bumpE e G) := by
  intro cs
  induction cs with
  | nil =>
    intro ds ts us i j k e hi hj ht hu hcu hdu hf hk
    obtain ⟨k, rfl⟩ : ∃ n, k = n + 1 := ⟨k - 1, by simp at hk; omega⟩
    simp at ht; subst ht
    simp only [iterEqRc, M.bind_apply, iterRcNext_nil hi, Res.bind_ok]
    cases ds with
    | nil => simp at hu; subst hu; simp [iterRcNext_nil hj, eqOL]
    | cons d ds =>
      obtain ⟨u, us', rfl, _, _⟩ := DenL_cons_left.mp hu
      obtain ⟨y, j', hy, hj', e2⟩ := iterRcNext_cons (e := e) R hj (hdu d (by simp)).1 (hdu d (by simp)).2
      simp only [M.bind_apply, e2, Res.bind_ok, eqOL]
      exact withHandle_ok R hy (hdu d (by simp)).1 rfl
  | cons c cs ih =>
    intro ds ts us i j k e hi hj ht hu hcu hdu hf hk
    obtain ⟨k, rfl⟩ : ∃ n, k = n + 1 := ⟨k - 1, by simp at hk; omega⟩
    obtain ⟨t, ts', rfl, ht1, ht2⟩ := DenL_cons_left.mp ht
    obtain ⟨x, i', hx, hi', e1⟩ := iterRcNext_cons (e := e) R hi (hcu c (by simp)).1 (hcu c (by simp)).2
    simp only [iterEqRc, M.bind_apply, e1, Res.bind_ok]
    cases ds with
    | nil =>
      simp at hu; subst hu
      rw [withHandle_ok (o := some (false, j)) R hx (hcu c (by simp)).1 (by
        simp only [M.bind_apply, iterRcNext_nil hj, Res.bind_ok]; rfl)]
      simp [eqOL]
    | cons d ds =>
      obtain ⟨u, us', rfl, hu1, hu2⟩ := DenL_cons_left.mp hu
      obtain ⟨y, j', hy, hj', e2⟩ := iterRcNext_cons (e := upd e c (e c + 1)) R hj (hdu d (by simp)).1 (hdu d (by simp)).2
      rw [withHandle_ok (o := (F t u).map fun b => (b, j')) R hx (hcu c (by simp)).1 (by
        simp only [M.bind_apply, e2, Res.bind_ok]
        exact pair_ok R hy (hdu d (by simp)).1 (fun e => hf x y c t d u e (by simp) hx ht1 (by simp) hy hu1))]
      have := ih hi' hj' ht2 hu2 (fun c hc => hcu c (by simp [hc])) (fun c hc => hdu c (by simp [hc]))
        (fun x y c t d u e hc a1 a2 hd a3 a4 => hf x y c t d u e (by simp [hc]) a1 a2 (by simp [hd]) a3 a4) (k := k) (e := e)
        (by simp at hk; omega)
      rcases hF : F t u with _ | _ | _ <;> simp [eqOL, this, hF]

theorem iterCmpRc_ok (R : RdOK G K) {f : RcRef → RcRef → M α Ordering} {F : RTree (Addr × α) → RTree (Addr × α) → Option Ordering} :
    ∀ {cs ds : List Addr} {ts us : List (RTree (Addr × α))} {i j : RawIter} {k : Nat} {e : Addr → Nat},
    i.At G cs → j.At G ds → DenL G.lab K cs ts → DenL G.lab K ds us → (∀ c ∈ cs, G.Used c ∧ G.IsVal c) → (∀ c ∈ ds, G.Used c ∧ G.IsVal c) →
    (∀ x y c t d u e, c ∈ cs → x.Is G c → Den G.lab K c t → d ∈ ds → y.Is G d → Den G.lab K d u → f x y (bumpE e G) = ofOpt (F t u) (bumpE e G)) →
    cs.length < k → iterCmpRc f k i j (bumpE e G) = ofOpt (cmpOL F ts us) (bumpE e G) := by
  intro cs
  induction cs with
  | nil =>
    intro ds ts us i j k e hi hj ht hu hcu hdu hf hk
    obtain ⟨k, rfl⟩ : ∃ n, k = n + 1 := ⟨k - 1, by simp at hk; omega⟩
    simp at ht; subst ht
    simp only [iterCmpRc, M.bind_apply, iterRcNext_nil hi, Res.bind_ok]
    cases ds with
    | nil => simp at hu; subst hu; simp [iterRcNext_nil hj, cmpOL]
    | cons d ds =>
      obtain ⟨u, us', rfl, _, _⟩ := DenL_cons_left.mp hu
      obtain ⟨y, j', hy, hj', e2⟩ := iterRcNext_cons (e := e) R hj (hdu d (by simp)).1 (hdu d (by simp)).2
      simp only [M.bind_apply, e2, Res.bind_ok, cmpOL]
      exact withHandle_ok R hy (hdu d (by simp)).1 rfl
  | cons c cs ih =>
    intro ds ts us i j k e hi hj ht hu hcu hdu hf hk
    obtain ⟨k, rfl⟩ : ∃ n, k = n + 1 := ⟨k - 1, by simp at hk; omega⟩
    obtain ⟨t, ts', rfl, ht1, ht2⟩ := DenL_cons_left.mp ht
    obtain ⟨x, i', hx, hi', e1⟩ := iterRcNext_cons (e := e) R hi (hcu c (by simp)).1 (hcu c (by simp)).2
    simp only [iterCmpRc, M.bind_apply, e1, Res.bind_ok]
    cases ds with
    | nil =>
      simp at hu; subst hu
      rw [withHandle_ok (o := some (.gt, j)) R hx (hcu c (by simp)).1 (by
        simp only [M.bind_apply, iterRcNext_nil hj, Res.bind_ok]; rfl)]
      simp [cmpOL]
    | cons d ds =>
      obtain ⟨u, us', rfl, hu1, hu2⟩ := DenL_cons_left.mp hu
      obtain ⟨y, j', hy, hj', e2⟩ := iterRcNext_cons (e := upd e c (e c + 1)) R hj (hdu d (by simp)).1 (hdu d (by simp)).2
      rw [withHandle_ok (o := (F t u).map fun b => (b, j')) R hx (hcu c (by simp)).1 (by
        simp only [M.bind_apply, e2, Res.bind_ok]
        exact pair_ok R hy (hdu d (by simp)).1 (fun e => hf x y c t d u e (by simp) hx ht1 (by simp) hy hu1))]
      have := ih hi' hj' ht2 hu2 (fun c hc => hcu c (by simp [hc])) (fun c hc => hdu c (by simp [hc]))
        (fun x y c t d u e hc a1 a2 hd a3 a4 => hf x y c t d u e (by simp [hc]) a1 a2 (by simp [hd]) a3 a4) (k := k) (e := e)
        (by simp at hk; omega)
      rcases hF : F t u with _ | _ | _ | _ <;> simp [cmpOL, this, hF]

theorem iterPcmpRc_ok (R : RdOK G K) {f : RcRef → RcRef → M α (Option Ordering)} {F : RTree (Addr × α) → RTree (Addr × α) → Option (Option Ordering)} :
    ∀ {cs ds : List Addr} {ts us : List (RTree (Addr × α))} {i j : RawIter} {k : Nat} {e : Addr → Nat},
    i.At G cs → j.At G ds → DenL G.lab K cs ts → DenL G.lab K ds us → (∀ c ∈ cs, G.Used c ∧ G.IsVal c) → (∀ c ∈ ds, G.Used c ∧ G.IsVal c) →
    (∀ x y c t d u e, c ∈ cs → x.Is G c → Den G.lab K c t → d ∈ ds → y.Is G d → Den G.lab K d u → f x y (bumpE e G) = ofOpt (F t u) (bumpE e G)) →
    cs.length < k → iterPcmpRc f k i j (bumpE e G) = ofOpt (pcmpOL F ts us) (bumpE e G) := by
  intro cs
  induction cs with
  | nil =>
    intro ds ts us i j k e hi hj ht hu hcu hdu hf hk
    obtain ⟨k, rfl⟩ : ∃ n, k = n + 1 := ⟨k - 1, by simp at hk; omega⟩
    simp at ht; subst ht
    simp only [iterPcmpRc, M.bind_apply, iterRcNext_nil hi, Res.bind_ok]
    cases ds with
    | nil => simp at hu; subst hu; simp [iterRcNext_nil hj, pcmpOL]
    | cons d ds =>
      obtain ⟨u, us', rfl, _, _⟩ := DenL_cons_left.mp hu
      obtain ⟨y, j', hy, hj', e2⟩ := iterRcNext_cons (e := e) R hj (hdu d (by simp)).1 (hdu d (by simp)).2
      simp only [M.bind_apply, e2, Res.bind_ok, pcmpOL]
      exact withHandle_ok R hy (hdu d (by simp)).1 rfl
  | cons c cs ih =>
    intro ds ts us i j k e hi hj ht hu hcu hdu hf hk
    obtain ⟨k, rfl⟩ : ∃ n, k = n + 1 := ⟨k - 1, by simp at hk; omega⟩
    obtain ⟨t, ts', rfl, ht1, ht2⟩ := DenL_cons_left.mp ht
    obtain ⟨x, i', hx, hi', e1⟩ := iterRcNext_cons (e := e) R hi (hcu c (by simp)).1 (hcu c (by simp)).2
    simp only [iterPcmpRc, M.bind_apply, e1, Res.bind_ok]
    cases ds with
    | nil =>
      simp at hu; subst hu
      rw [withHandle_ok (o := some (some .gt, j)) R hx (hcu c (by simp)).1 (by
        simp only [M.bind_apply, iterRcNext_nil hj, Res.bind_ok]; rfl)]
      simp [pcmpOL]
    | cons d ds =>
      obtain ⟨u, us', rfl, hu1, hu2⟩ := DenL_cons_left.mp hu
      obtain ⟨y, j', hy, hj', e2⟩ := iterRcNext_cons (e := upd e c (e c + 1)) R hj (hdu d (by simp)).1 (hdu d (by simp)).2
      rw [withHandle_ok (o := (F t u).map fun b => (b, j')) R hx (hcu c (by simp)).1 (by
        simp only [M.bind_apply, e2, Res.bind_ok]
        exact pair_ok R hy (hdu d (by simp)).1 (fun e => hf x y c t d u e (by simp) hx ht1 (by simp) hy hu1))]
      have := ih hi' hj' ht2 hu2 (fun c hc => hcu c (by simp [hc])) (fun c hc => hdu c (by simp [hc]))
        (fun x y c t d u e hc a1 a2 hd a3 a4 => hf x y c t d u e (by simp [hc]) a1 a2 (by simp [hd]) a3 a4) (k := k) (e := e)
        (by simp at hk; omega)
      rcases hF : F t u with _ | _ | _ | _ | _ <;> simp [pcmpOL, this, hF]

theorem forIterRc_ok (R : RdOK G K) {f : RcRef → σ → M α σ} {F : RTree (Addr × α) → σ → Option σ} :
    ∀ {cs : List Addr} {ts : List (RTree (Addr × α))} {i : RawIter} {k : Nat} {s : σ} {e : Addr → Nat},
    i.At G cs → DenL G.lab K cs ts → (∀ c ∈ cs, G.Used c ∧ G.IsVal c) →
    (∀ x c t s e, c ∈ cs → x.Is G c → Den G.lab K c t → f x s (bumpE e G) = ofOpt (F t s) (bumpE e G)) →
    cs.length < k → forIterRc f k i s (bumpE e G) = ofOpt (foldOL F ts s) (bumpE e G) := by
  intro cs
  induction cs with
  | nil =>
    intro ts i k s e hi ht hcu hf hk
    obtain ⟨k, rfl⟩ : ∃ n, k = n + 1 := ⟨k - 1, by simp at hk; omega⟩
    simp at ht; subst ht
    simp [forIterRc, M.bind_apply, iterRcNext_nil hi, foldOL]
  | cons c cs ih =>
    intro ts i k s e hi ht hcu hf hk
    obtain ⟨k, rfl⟩ : ∃ n, k = n + 1 := ⟨k - 1, by simp at hk; omega⟩
    obtain ⟨t, ts', rfl, ht1, ht2⟩ := DenL_cons_left.mp ht
    obtain ⟨x, i', hx, hi', e1⟩ := iterRcNext_cons (e := e) R hi (hcu c (by simp)).1 (hcu c (by simp)).2
    simp only [forIterRc, M.bind_apply, e1, Res.bind_ok]
    rw [withHandle_ok (o := F t s) R hx (hcu c (by simp)).1 (hf x c t s _ (by simp) hx ht1)]
    rcases hF : F t s with _ | s'
    · simp [foldOL, hF]
    · simp only [ofOpt_some, Res.bind_ok, foldOL, hF, Option.bind_some]
      exact ih hi' ht2 (fun c hc => hcu c (by simp [hc])) (fun x c t s e hc => hf x c t s e (by simp [hc])) (by simp at hk; omega)

end

theorem eqVL_eq {ι : Type} (lk : ι → Bool) (eq : α → α → Bool) : ∀ ts us : List (RTree (ι × α)), eqVL lk eq ts us = eqOL (eqV lk eq) ts us
  | [], [] => by simp [eqVL, eqOL]
  | [], _ :: _ => by simp [eqVL, eqOL]
  | _ :: _, [] => by simp [eqVL, eqOL]
  | t :: ts, u :: us => by
    simp only [eqVL, eqOL, eqVL_eq lk eq ts us]
    rcases eqV lk eq t u with _ | _ | _ <;> rfl

theorem cmpVL_eq {ι : Type} (lk : ι → Bool) (c : α → α → Ordering) : ∀ ts us : List (RTree (ι × α)), cmpVL lk c ts us = cmpOL (cmpV lk c) ts us
  | [], [] => by simp [cmpVL, cmpOL]
  | [], _ :: _ => by simp [cmpVL, cmpOL]
  | _ :: _, [] => by simp [cmpVL, cmpOL]
  | t :: ts, u :: us => by
    simp only [cmpVL, cmpOL, cmpVL_eq lk c ts us]
    rcases cmpV lk c t u with _ | _ | _ | _ <;> rfl

theorem pcmpVL_eq {ι : Type} (lk : ι → Bool) (c : α → α → Option Ordering) : ∀ ts us : List (RTree (ι × α)), pcmpVL lk c ts us = pcmpOL (pcmpV lk c) ts us
  | [], [] => by simp [pcmpVL, pcmpOL]
  | [], _ :: _ => by simp [pcmpVL, pcmpOL]
  | _ :: _, [] => by simp [pcmpVL, pcmpOL]
  | t :: ts, u :: us => by
    simp only [pcmpVL, pcmpOL, pcmpVL_eq lk c ts us]
    rcases pcmpV lk c t u with _ | _ | _ | _ | _ <;> rfl

/-- The locked nodes. -/
def Locks (lk : Addr → Bool) (G : Heap α) : Prop := ∀ a, G.Used a → (lk a = true ↔ ¬ 0 ≤ G.borrow a)

theorem Locks.bor {lk : Addr → Bool} {G : Heap α} (L : Locks lk G) {a : Addr} (hb : 0 ≤ G.borrow a) : Locks lk (G.bor a (G.borrow a + 1)) := by
  intro b hu
  rw [L b hu]
  simp only [Heap.bor, upd_apply]
  split
  · rename_i e; subst e; constructor <;> intro h <;> omega
  · exact Iff.rfl

/-- Two nodes are compared while their data is borrowed. -/
theorem both_ok {G : Heap α} {lk : Addr → Bool} {e : Addr → Nat} (L : Locks lk G) {r q : RcRef} {a b : Addr} {d d' : α}
    (hr : r.Is G a) (ha : G.Used a) (hv : G.val a = some d) (hq : q.Is G b) (hb : G.Used b) (hw : G.val b = some d')
    {f : α → α → M α β} {o : Option β}
    (hf : ∀ G', (∀ K, RdOK G K → RdOK G' K) → G'.lab = G.lab → G'.Used = G.Used → G'.size = G.size → (∀ (r : RcRef) a, r.Is G a → r.Is G' a) → Locks lk G' →
      0 ≤ G'.borrow a → 0 ≤ G'.borrow b → f d d' (bumpE e G') = ofOpt o (bumpE e G')) :
    withData r (fun d => withData q (f d)) (bumpE e G) = ofOpt (if (lk a || lk b) = true then none else o) (bumpE e G) := by
  by_cases h1 : 0 ≤ G.borrow a
  · have L1 := L.bor h1
    have e1 : lk a = false := by
      cases h : lk a with
      | false => rfl
      | true => exact absurd h1 ((L a ha).mp h)
    refine withData_ok hr ha hv h1 ?_
    by_cases h2 : 0 ≤ (G.bor a (G.borrow a + 1)).borrow b
    · have e2 : lk b = false := by
        cases h : lk b with
        | false => rfl
        | true => exact absurd h2 ((L1 b hb).mp h)
      simp only [e1, e2, Bool.or_self, Bool.false_eq_true, if_false]
      refine withData_ok hq hb hw h2 ?_
      refine hf _ (fun K R => (R.bor _ _).bor _ _) rfl rfl rfl (fun r a h => h) (L1.bor h2) ?_ ?_
      · simp only [Heap.bor, upd_apply]; split
        · split
          · omega
          · rename_i g1 g2; exact absurd g1.symm g2
        · simp; omega
      · have : ((G.bor a (G.borrow a + 1)).bor b ((G.bor a (G.borrow a + 1)).borrow b + 1)).borrow b = (G.bor a (G.borrow a + 1)).borrow b + 1 :=
          upd_self _ _ _
        rw [this]; exact Int.le_add_one h2
    · have e2 : lk b = true := (L1 b hb).mpr h2
      simp only [e2, Bool.or_true, if_true, ofOpt_none]
      exact withData_locked hq hb h2
  · have e1 : lk a = true := (L a ha).mpr h1
    simp only [e1, Bool.true_or, if_true, ofOpt_none]
    exact withData_locked hr ha h1

section
variable {K : Addr → List Addr} {lk : Addr → Bool}

theorem RdOK.kids {G : Heap α} (R : RdOK G K) {a : Addr} (c : Addr) (hc : c ∈ K a) : G.Used c ∧ G.IsVal c :=
  ⟨R.inv.used_of_mem hc, R.kv a c hc⟩

theorem rcEq_ok (eq : α → α → Bool) : ∀ (k : Nat) {G : Heap α} {e : Addr → Nat} {r q : RcRef} {a b : Addr} {t u : RTree (Addr × α)},
    RdOK G K → Locks lk G → r.Is G a → G.Used a → q.Is G b → G.Used b → Den G.lab K a t → Den G.lab K b u → (G.size a).descendants < k →
    rcEq eq k r q (bumpE e G) = ofOpt (eqV lk eq t u) (bumpE e G) := by
  intro k
  induction k with
  | zero => intro G e r q a b t u _ _ _ _ _ _ _ _ hk; omega
  | succ k ih =>
    intro G e r q a b t u R L hr ha hq hb ht hu hk
    obtain ⟨x, ts⟩ := t
    obtain ⟨y, us⟩ := u
    simp only [Den_node] at ht hu
    obtain ⟨x1, x2⟩ := Heap.lab_some.mp ht.1
    obtain ⟨y1, y2⟩ := Heap.lab_some.mp hu.1
    have hd := both_ok (e := e) L hr ha x2 hq hb y2 (f := fun d e => (return eq d e : M α Bool)) (o := some (eq x.2 y.2)) (by intros; rfl)
    simp only [rcEq, M.bind_apply]
    rw [hd]
    simp only [eqV, x1, y1]
    by_cases hl : (lk a || lk b) = true
    · simp [hl]
    · rw [if_neg hl, if_neg hl]
      simp only [ofOpt_some, Res.bind_ok]
      have l1 : 0 ≤ G.borrow a := by
        by_contra h; exact hl (by rw [(L a ha).mpr h]; rfl)
      have l2 : 0 ≤ G.borrow b := by
        by_contra h; exact hl (by rw [(L b hb).mpr h]; simp)
      by_cases he : eq x.2 y.2 = true
      · obtain ⟨i, i1, i2⟩ := iterRc_at (e := e) R hr ha l1
        obtain ⟨j, j1, j2⟩ := iterRc_at (e := e) R hq hb l2
        simp only [he, if_true, M.bind_apply, i1, j1, Res.bind_ok]
        rw [eqVL_eq]
        refine iterEqRc_ok R i2 j2 ht.2 hu.2 R.kids R.kids ?_ (by rw [i2.1]; omega)
        intro x y c t d u e hc hx ht hd hy hu
        have := R.inv.desc_lt hc
        exact ih R L hx (R.kids c hc).1 hy (R.kids d hd).1 ht hu (by omega)
      · simp only [he, if_false]; rfl

theorem rcNe_ok (eq ne : α → α → Bool) {k : Nat} {G : Heap α} {e : Addr → Nat} {r q : RcRef} {a b : Addr} {t u : RTree (Addr × α)}
    (R : RdOK G K) (L : Locks lk G) (hr : r.Is G a) (ha : G.Used a) (hq : q.Is G b) (hb : G.Used b) (ht : Den G.lab K a t) (hu : Den G.lab K b u)
    (hk : (G.size a).descendants ≤ k) :
    rcNe eq ne k r q (bumpE e G) = ofOpt (if lk t.data.1 || lk u.data.1 then none else if ne t.data.2 u.data.2 then some true else
      (eqVL lk eq t.kids u.kids).map (! ·)) (bumpE e G) := by
  obtain ⟨x, ts⟩ := t
  obtain ⟨y, us⟩ := u
  simp only [Den_node] at ht hu
  obtain ⟨x1, x2⟩ := Heap.lab_some.mp ht.1
  obtain ⟨y1, y2⟩ := Heap.lab_some.mp hu.1
  have hd := both_ok (e := e) L hr ha x2 hq hb y2 (f := fun d e => (return ne d e : M α Bool)) (o := some (ne x.2 y.2)) (by intros; rfl)
  simp only [rcNe, M.bind_apply]
  rw [hd]
  simp only [data_node, kids_node, x1, y1]
  by_cases hl : (lk a || lk b) = true
  · simp [hl]
  · rw [if_neg hl, if_neg hl]
    simp only [ofOpt_some, Res.bind_ok]
    have l1 : 0 ≤ G.borrow a := by
      by_contra h; exact hl (by rw [(L a ha).mpr h]; rfl)
    have l2 : 0 ≤ G.borrow b := by
      by_contra h; exact hl (by rw [(L b hb).mpr h]; simp)
    by_cases he : ne x.2 y.2 = true
    · simp only [he, if_true]; rfl
    · obtain ⟨i, i1, i2⟩ := iterRc_at (e := e) R hr ha l1
      obtain ⟨j, j1, j2⟩ := iterRc_at (e := e) R hq hb l2
      have he' : ne x.2 y.2 = false := by simpa using he
      simp only [he', Bool.false_eq_true, if_false, M.bind_apply, i1, j1, Res.bind_ok]
      rw [iterEqRc_ok (F := eqV lk eq) R i2 j2 ht.2 hu.2 R.kids R.kids (by
        intro x y c t d u e hc hx ht hd hy hu
        have := R.inv.desc_lt hc
        exact rcEq_ok eq k R L hx (R.kids c hc).1 hy (R.kids d hd).1 ht hu (by omega)) (by rw [i2.1]; omega)]
      rw [eqVL_eq]
      cases eqOL (eqV lk eq) ts us <;> simp

theorem rcCmp_ok (c : α → α → Ordering) : ∀ (k : Nat) {G : Heap α} {e : Addr → Nat} {r q : RcRef} {a b : Addr} {t u : RTree (Addr × α)},
    RdOK G K → Locks lk G → r.Is G a → G.Used a → q.Is G b → G.Used b → Den G.lab K a t → Den G.lab K b u → (G.size a).descendants < k →
    rcCmp c k r q (bumpE e G) = ofOpt (cmpV lk c t u) (bumpE e G) := by
  intro k
  induction k with
  | zero => intro G e r q a b t u _ _ _ _ _ _ _ _ hk; omega
  | succ k ih =>
    intro G e r q a b t u R L hr ha hq hb ht hu hk
    obtain ⟨x, ts⟩ := t
    obtain ⟨y, us⟩ := u
    simp only [Den_node] at ht hu
    obtain ⟨x1, x2⟩ := Heap.lab_some.mp ht.1
    obtain ⟨y1, y2⟩ := Heap.lab_some.mp hu.1
    simp only [rcCmp, cmpV, x1, y1]
    refine both_ok L hr ha x2 hq hb y2 ?_
    intro G' RR el eu es hh L' l1 l2
    have R' := RR K R
    rw [← el] at ht hu
    have ha' : G'.Used a := by rw [eu]; exact ha
    have hb' : G'.Used b := by rw [eu]; exact hb
    rcases he : c x.2 y.2 with _ | _ | _
    · simp
    · obtain ⟨i, i1, i2⟩ := iterRc_at (e := e) R' (hh _ _ hr) ha' l1
      obtain ⟨j, j1, j2⟩ := iterRc_at (e := e) R' (hh _ _ hq) hb' l2
      simp only [he, if_true, M.bind_apply, i1, j1, Res.bind_ok]
      rw [cmpVL_eq]
      refine iterCmpRc_ok R' i2 j2 ht.2 hu.2 R'.kids R'.kids ?_ (by rw [i2.1]; omega)
      intro x y c t d u e hc hx ht hd hy hu
      have := R'.inv.desc_lt hc
      rw [es] at this
      exact ih R' L' hx (R'.kids c hc).1 hy (R'.kids d hd).1 ht hu (by rw [es]; omega)
    · simp

theorem rcPcmp_ok (pc : α → α → Option Ordering) : ∀ (k : Nat) {G : Heap α} {e : Addr → Nat} {r q : RcRef} {a b : Addr} {t u : RTree (Addr × α)},
    RdOK G K → Locks lk G → r.Is G a → G.Used a → q.Is G b → G.Used b → Den G.lab K a t → Den G.lab K b u → (G.size a).descendants < k →
    rcPcmp pc k r q (bumpE e G) = ofOpt (pcmpV lk pc t u) (bumpE e G) := by
  intro k
  induction k with
  | zero => intro G e r q a b t u _ _ _ _ _ _ _ _ hk; omega
  | succ k ih =>
    intro G e r q a b t u R L hr ha hq hb ht hu hk
    obtain ⟨x, ts⟩ := t
    obtain ⟨y, us⟩ := u
    simp only [Den_node] at ht hu
    obtain ⟨x1, x2⟩ := Heap.lab_some.mp ht.1
    obtain ⟨y1, y2⟩ := Heap.lab_some.mp hu.1
    simp only [rcPcmp, pcmpV, x1, y1]
    refine both_ok L hr ha x2 hq hb y2 ?_
    intro G' RR el eu es hh L' l1 l2
    have R' := RR K R
    rw [← el] at ht hu
    have ha' : G'.Used a := by rw [eu]; exact ha
    have hb' : G'.Used b := by rw [eu]; exact hb
    rcases he : pc x.2 y.2 with _ | _ | _ | _
    · simp
    · simp
    · obtain ⟨i, i1, i2⟩ := iterRc_at (e := e) R' (hh _ _ hr) ha' l1
      obtain ⟨j, j1, j2⟩ := iterRc_at (e := e) R' (hh _ _ hq) hb' l2
      simp only [he, if_true, M.bind_apply, i1, j1, Res.bind_ok]
      rw [pcmpVL_eq]
      refine iterPcmpRc_ok R' i2 j2 ht.2 hu.2 R'.kids R'.kids ?_ (by rw [i2.1]; omega)
      intro x y c t d u e hc hx ht hd hy hu
      have := R'.inv.desc_lt hc
      rw [es] at this
      exact ih R' L' hx (R'.kids c hc).1 hy (R'.kids d hd).1 ht hu (by rw [es]; omega)
    · simp

/-- One item after the other, a locked node stops. -/
def goV {ι : Type} (lk : ι → Bool) (f : α → σ → σ) (l : List (ι × α)) (s : σ) : Option σ :=
  if l.any (fun x => lk x.1) then none else some (l.foldl (fun s x => f x.2 s) s)

theorem foldOL_go {ι : Type} (lk : ι → Bool) (f : α → σ → σ) : ∀ (ts : List (RTree (ι × α))) (s : σ),
    foldOL (fun t s => goV lk f t.pre s) ts s = goV lk f (preL ts) s := by
  intro ts
  induction ts with
  | nil => intro s; simp [foldOL, goV]
  | cons t ts ih =>
    intro s
    simp only [foldOL]
    by_cases h1 : t.pre.any (fun x => lk x.1) = true
    · simp [goV, h1]
    · have h2 : goV lk f t.pre s = some (t.pre.foldl (fun s x => f x.2 s) s) := if_neg h1
      rw [h2, Option.bind_some, ih]
      simp only [goV, preL, List.any_append, List.foldl_append, h1, Bool.false_or]

theorem rcHash_ok (hs : α → σ → σ) : ∀ (k : Nat) {G : Heap α} {e : Addr → Nat} {r : RcRef} {a : Addr} {t : RTree (Addr × α)} {s : σ},
    RdOK G K → Locks lk G → r.Is G a → G.Used a → Den G.lab K a t → (G.size a).descendants < k →
    rcHash hs k r s (bumpE e G) = ofOpt (goV lk hs t.pre s) (bumpE e G) := by
  intro k
  induction k with
  | zero => intro G e r a t s _ _ _ _ _ hk; omega
  | succ k ih =>
    intro G e r a t s R L hr ha ht hk
    obtain ⟨x, ts⟩ := t
    simp only [Den_node] at ht
    obtain ⟨x1, x2⟩ := Heap.lab_some.mp ht.1
    simp only [rcHash, M.bind_apply]
    by_cases l1 : 0 ≤ G.borrow a
    · have l2 : lk a = false := by
        cases h : lk a with
        | false => rfl
        | true => exact absurd l1 ((L a ha).mp h)
      obtain ⟨i, i1, i2⟩ := iterRc_at (e := e) R hr ha l1
      rw [withData_ok (o := some (hs x.2 s)) hr ha x2 l1 rfl]
      simp only [ofOpt_some, Res.bind_ok, M.bind_apply, i1]
      rw [forIterRc_ok (F := fun t s => goV lk hs t.pre s) R i2 ht.2 R.kids (by
        intro x c t s e hc hx ht
        have := R.inv.desc_lt hc
        exact ih R L hx (R.kids c hc).1 ht (by omega)) (by rw [i2.1]; omega)]
      rw [foldOL_go]
      simp only [goV, pre, List.any_cons, x1, l2, Bool.false_or, List.foldl_cons]
    · rw [withData_locked hr ha l1]
      simp [goV, x1, (L a ha).mpr l1]

theorem foldOL_render {ι : Type} (lk : ι → Bool) (sh : α → List Char) : ∀ (ts : List (RTree (ι × α))) (o : List Char),
    foldOL (fun t o => if t.pre.any (fun x => lk x.1) then none else some (o ++ render sh t.plain ++ [' '])) ts o =
      if (preL ts).any (fun x => lk x.1) then none else some (o ++ renderL sh (mapL Prod.snd ts)) := by
  intro ts
  induction ts with
  | nil => intro s; simp [foldOL, renderL]
  | cons t ts ih =>
    intro o
    simp only [foldOL, ih, preL, List.any_append]
    by_cases h1 : t.pre.any (fun x => lk x.1) = true
    · simp [h1]
    · simp only [h1, if_false, Option.bind_some, Bool.false_or, Bool.false_eq_true, ih]
      simp [renderL, RTree.plain]

theorem rcFmt_ok (sh : α → List Char) : ∀ (k : Nat) {G : Heap α} {e : Addr → Nat} {r : RcRef} {a : Addr} {t : RTree (Addr × α)} {o : List Char},
    RdOK G K → Locks lk G → r.Is G a → G.Used a → Den G.lab K a t → (G.size a).descendants < k →
    rcFmt sh k r o (bumpE e G) = ofOpt (if t.pre.any (fun x => lk x.1) then none else some (o ++ render sh t.plain)) (bumpE e G) := by
  intro k
  induction k with
  | zero => intro G e r a t s _ _ _ _ _ hk; omega
  | succ k ih =>
    intro G e r a t o R L hr ha ht hk
    obtain ⟨x, ts⟩ := t
    simp only [Den_node] at ht
    obtain ⟨x1, x2⟩ := Heap.lab_some.mp ht.1
    simp only [rcFmt, M.bind_apply]
    by_cases l1 : 0 ≤ G.borrow a
    · have l2 : lk a = false := by
        cases h : lk a with
        | false => rfl
        | true => exact absurd l1 ((L a ha).mp h)
      have hI : Inv (bumpE e (G.bor a (G.borrow a + 1))) K := (R.inv.bor _ _).over _ _
      have hu : (bumpE e (G.bor a (G.borrow a + 1))).Used a := ha
      have q1 := hasNoChild_ok (h := bumpE e (G.bor a (G.borrow a + 1))) ha.1
      rw [hI.l.head a hu] at q1
      rw [withShared_read (f := hasNoChild) hr ha l1 q1]
      simp only [Res.bind_ok]
      cases hK : K a with
      | nil =>
        rw [hK] at ht
        have := ht.2
        simp at this
        subst this
        rw [if_pos (show ([] : List Addr).head?.isNone = true from rfl)]
        rw [withData_ok (o := some (o ++ sh x.2)) hr ha x2 l1 rfl]
        simp [x1, l2, RTree.plain, RTree.map, render]
      | cons c cs =>
        obtain ⟨i, i1, i2⟩ := iterRc_at (e := e) R hr ha l1
        obtain ⟨t, ts, rfl, -, -⟩ := DenL_cons_left.mp (hK ▸ ht.2)
        rw [if_neg (show ¬ (c :: cs).head?.isNone = true by simp)]
        simp only [M.bind_apply]
        rw [withData_ok (o := some (o ++ sh x.2)) hr ha x2 l1 rfl]
        simp only [ofOpt_some, Res.bind_ok, M.bind_apply, i1]
        rw [forIterRc_ok (F := fun t o => if t.pre.any (fun x => lk x.1) then none else some (o ++ render sh t.plain ++ [' '])) R i2 ht.2 R.kids (by
          intro x c t s e hc hx ht
          have := R.inv.desc_lt hc
          simp only [M.bind_apply, ih (o := s) (e := e) R L hx (R.kids c hc).1 ht (by omega)]
          split <;> simp) (by rw [i2.1]; omega)]
        rw [foldOL_render]
        simp only [pre, List.any_cons, x1, l2, Bool.false_or]
        by_cases h1 : (preL (t :: ts)).any (fun x => lk x.1) = true
        · simp only [h1, if_true]; rfl
        · simp only [h1, if_false, Bool.false_eq_true, ofOpt_some, Res.bind_ok, M.pure_apply]
          rw [show (node x (t :: ts)).plain = node x.2 (t.plain :: mapL Prod.snd ts) by simp [RTree.plain, RTree.map, RTree.mapL]]
          rw [renderL_cons']
          simp [RTree.plain, RTree.mapL]
    · have l2 := borrowShared_conflict (Z := fun _ => false) (e := e) hr ha l1
      simp only [withShared, M.bind_apply, l2, Res.bind_err]
      simp [x1, (L a ha).mpr l1]

end

/-! ### Locks and answers -/

section
variable {ι : Type} {lk : ι → Bool}

mutual
theorem eqV_cases (eq : α → α → Bool) : ∀ t u : RTree (ι × α), eqV lk eq t u = some (eqB eq t.plain u.plain) ∨
    (eqV lk eq t u = none ∧ ∃ a, (a ∈ t.ids ∨ a ∈ u.ids) ∧ lk a = true)
  | node x ts, node y us => by
    simp only [eqV]
    by_cases h : (lk x.1 || lk y.1) = true
    · right
      refine ⟨if_pos h, ?_⟩
      rcases Bool.or_eq_true_iff.mp h with h | h
      · exact ⟨x.1, .inl (by simp [ids]), h⟩
      · exact ⟨y.1, .inr (by simp [ids]), h⟩
    · rw [if_neg h]
      simp only [plain, RTree.map, eqB]
      by_cases he : eq x.2 y.2 = true
      · rw [if_pos he, he]
        rcases eqVL_cases eq ts us with h1 | ⟨h1, a, h2, h3⟩
        · exact .inl (by simp [h1])
        · refine .inr ⟨h1, a, ?_, h3⟩
          simp only [ids, pre, List.map_cons, List.mem_cons]
          exact h2.imp .inr .inr
      · exact .inl (by simp [he])
theorem eqVL_cases (eq : α → α → Bool) : ∀ ts us : List (RTree (ι × α)), eqVL lk eq ts us = some (eqBL eq (mapL Prod.snd ts) (mapL Prod.snd us)) ∨
    (eqVL lk eq ts us = none ∧ ∃ a, (a ∈ (preL ts).map Prod.fst ∨ a ∈ (preL us).map Prod.fst) ∧ lk a = true)
  | [], [] => .inl (by simp [eqVL, mapL, eqBL])
  | [], _ :: _ => .inl (by simp [eqVL, mapL, eqBL])
  | _ :: _, [] => .inl (by simp [eqVL, mapL, eqBL])
  | t :: ts, u :: us => by
    simp only [eqVL, mapL, eqBL]
    rcases eqV_cases eq t u with h | ⟨h, a, h1, h2⟩
    · rw [h]
      simp only [plain] at *
      cases hb : eqB eq (t.map Prod.snd) (u.map Prod.snd) with
      | false => exact .inl (by simp)
      | true =>
        rcases eqVL_cases eq ts us with h1 | ⟨h1, a, h2, h3⟩
        · exact .inl (by simp [h1])
        · refine .inr ⟨h1, a, ?_, h3⟩
          simp only [preL, List.map_append, List.mem_append]
          exact h2.imp .inr .inr
    · right
      rw [h]
      refine ⟨rfl, a, ?_, h2⟩
      simp only [preL, List.map_append, List.mem_append]
      exact h1.imp .inl .inl
end

mutual
theorem cmpV_cases (c : α → α → Ordering) : ∀ t u : RTree (ι × α), cmpV lk c t u = some (RTree.cmp c t.plain u.plain) ∨
    (cmpV lk c t u = none ∧ ∃ a, (a ∈ t.ids ∨ a ∈ u.ids) ∧ lk a = true)
  | node x ts, node y us => by
    simp only [cmpV]
    by_cases h : (lk x.1 || lk y.1) = true
    · right
      refine ⟨if_pos h, ?_⟩
      rcases Bool.or_eq_true_iff.mp h with h | h
      · exact ⟨x.1, .inl (by simp [ids]), h⟩
      · exact ⟨y.1, .inr (by simp [ids]), h⟩
    · rw [if_neg h]
      simp only [plain, RTree.map, RTree.cmp]
      by_cases he : c x.2 y.2 = .eq
      · rw [if_pos he, he]
        rcases cmpVL_cases c ts us with h1 | ⟨h1, a, h2, h3⟩
        · exact .inl (by simp [h1])
        · refine .inr ⟨h1, a, ?_, h3⟩
          simp only [ids, pre, List.map_cons, List.mem_cons]
          exact h2.imp .inr .inr
      · rw [if_neg he]
        left
        cases hc : c x.2 y.2 <;> simp_all
theorem cmpVL_cases (c : α → α → Ordering) : ∀ ts us : List (RTree (ι × α)), cmpVL lk c ts us = some (RTree.cmpL c (mapL Prod.snd ts) (mapL Prod.snd us)) ∨
    (cmpVL lk c ts us = none ∧ ∃ a, (a ∈ (preL ts).map Prod.fst ∨ a ∈ (preL us).map Prod.fst) ∧ lk a = true)
  | [], [] => .inl (by simp [cmpVL, mapL, RTree.cmpL])
  | [], _ :: _ => .inl (by simp [cmpVL, mapL, RTree.cmpL])
  | _ :: _, [] => .inl (by simp [cmpVL, mapL, RTree.cmpL])
  | t :: ts, u :: us => by
    simp only [cmpVL, mapL, RTree.cmpL]
    rcases cmpV_cases c t u with h | ⟨h, a, h1, h2⟩
    · rw [h]
      simp only [plain] at *
      cases hb : RTree.cmp c (t.map Prod.snd) (u.map Prod.snd) with
      | lt => exact .inl (by simp)
      | gt => exact .inl (by simp)
      | eq =>
        rcases cmpVL_cases c ts us with h1 | ⟨h1, a, h2, h3⟩
        · exact .inl (by simp [h1])
        · refine .inr ⟨h1, a, ?_, h3⟩
          simp only [preL, List.map_append, List.mem_append]
          exact h2.imp .inr .inr
    · right
      rw [h]
      refine ⟨rfl, a, ?_, h2⟩
      simp only [preL, List.map_append, List.mem_append]
      exact h1.imp .inl .inl
end

mutual
theorem pcmpV_cases (c : α → α → Option Ordering) : ∀ t u : RTree (ι × α), pcmpV lk c t u = some (RTree.pcmp c t.plain u.plain) ∨
    (pcmpV lk c t u = none ∧ ∃ a, (a ∈ t.ids ∨ a ∈ u.ids) ∧ lk a = true)
  | node x ts, node y us => by
    simp only [pcmpV]
    by_cases h : (lk x.1 || lk y.1) = true
    · right
      refine ⟨if_pos h, ?_⟩
      rcases Bool.or_eq_true_iff.mp h with h | h
      · exact ⟨x.1, .inl (by simp [ids]), h⟩
      · exact ⟨y.1, .inr (by simp [ids]), h⟩
    · rw [if_neg h]
      simp only [plain, RTree.map, RTree.pcmp, pthen]
      by_cases he : c x.2 y.2 = some .eq
      · rw [if_pos he, if_pos he]
        rcases pcmpVL_cases c ts us with h1 | ⟨h1, a, h2, h3⟩
        · exact .inl h1
        · refine .inr ⟨h1, a, ?_, h3⟩
          simp only [ids, pre, List.map_cons, List.mem_cons]
          exact h2.imp .inr .inr
      · rw [if_neg he, if_neg he]
        exact .inl rfl
theorem pcmpVL_cases (c : α → α → Option Ordering) : ∀ ts us : List (RTree (ι × α)), pcmpVL lk c ts us = some (RTree.pcmpL c (mapL Prod.snd ts) (mapL Prod.snd us)) ∨
    (pcmpVL lk c ts us = none ∧ ∃ a, (a ∈ (preL ts).map Prod.fst ∨ a ∈ (preL us).map Prod.fst) ∧ lk a = true)
  | [], [] => .inl (by simp [pcmpVL, mapL, RTree.pcmpL])
  | [], _ :: _ => .inl (by simp [pcmpVL, mapL, RTree.pcmpL])
  | _ :: _, [] => .inl (by simp [pcmpVL, mapL, RTree.pcmpL])
  | t :: ts, u :: us => by
    simp only [pcmpVL, mapL, RTree.pcmpL, pthen]
    rcases pcmpV_cases c t u with h | ⟨h, a, h1, h2⟩
    · rw [h]
      simp only [plain] at *
      by_cases hb : RTree.pcmp c (t.map Prod.snd) (u.map Prod.snd) = some .eq
      · rw [if_pos hb, hb]
        rcases pcmpVL_cases c ts us with h1 | ⟨h1, a, h2, h3⟩
        · exact .inl h1
        · refine .inr ⟨h1, a, ?_, h3⟩
          simp only [preL, List.map_append, List.mem_append]
          exact h2.imp .inr .inr
      · rw [if_neg hb]
        left
        rcases hp : RTree.pcmp c (t.map Prod.snd) (u.map Prod.snd) with _ | _ | _ | _ <;> simp_all
    · right
      rw [h]
      refine ⟨rfl, a, ?_, h2⟩
      simp only [preL, List.map_append, List.mem_append]
      exact h1.imp .inl .inl
end

/-! ### Equal trees are hashed equally -/

mutual
theorem eqV_locked {eq : α → α → Bool} : ∀ t u : RTree (ι × α), eqV lk eq t u = some true →
    RTree.Same (fun x y => lk x.1 = false ∧ lk y.1 = false ∧ eq x.2 y.2 = true) t u
  | node x ts, node y us, h => by
    simp only [eqV] at h
    by_cases hl : (lk x.1 || lk y.1) = true
    · rw [if_pos hl] at h; simp at h
    · rw [if_neg hl] at h
      simp only [Bool.or_eq_true, not_or, Bool.not_eq_true] at hl
      by_cases he : eq x.2 y.2 = true
      · rw [if_pos he] at h
        simp only [RTree.Same]
        exact ⟨⟨hl.1, hl.2, he⟩, eqVL_locked ts us h⟩
      · rw [if_neg he] at h; simp at h
theorem eqVL_locked {eq : α → α → Bool} : ∀ ts us : List (RTree (ι × α)), eqVL lk eq ts us = some true →
    SameL (fun x y => lk x.1 = false ∧ lk y.1 = false ∧ eq x.2 y.2 = true) ts us
  | [], [], _ => trivial
  | [], _ :: _, h => by simp [eqVL] at h
  | _ :: _, [], h => by simp [eqVL] at h
  | t :: ts, u :: us, h => by
    simp only [eqVL] at h
    rcases hb : eqV lk eq t u with _ | _ | _
    · rw [hb] at h; simp at h
    · rw [hb] at h; simp at h
    · rw [hb] at h
      exact ⟨eqV_locked t u hb, eqVL_locked ts us h⟩
end

theorem goV_append {f : α → σ → σ} {l l' : List (ι × α)} {s : σ} : goV lk f (l ++ l') s = (goV lk f l s).bind (goV lk f l') := by
  simp only [goV, List.any_append, List.foldl_append]
  by_cases h : l.any (fun x => lk x.1) = true
  · simp [h]
  · simp only [h, if_false, Bool.false_or, Bool.false_eq_true, Option.bind_some, goV]

mutual
theorem goV_same {eq : α → α → Bool} {hs : α → σ → σ} (hT : ∀ d e s, eq d e = true → hs d s = hs e s) : ∀ t u : RTree (ι × α),
    RTree.Same (fun x y => lk x.1 = false ∧ lk y.1 = false ∧ eq x.2 y.2 = true) t u → ∀ s, goV lk hs t.pre s = goV lk hs u.pre s
  | node x ts, node y us, h, s => by
    simp only [RTree.Same] at h
    obtain ⟨⟨h1, h2, h3⟩, h4⟩ := h
    have := goV_sameL hT ts us h4 (hs x.2 s)
    have e1 : ∀ (z : ι × α) l s, lk z.1 = false → goV lk hs (z :: l) s = goV lk hs l (hs z.2 s) := by
      intro z l s hz; simp only [goV, List.any_cons, hz, Bool.false_or, List.foldl_cons]
    rw [pre, pre, e1 _ _ _ h1, e1 _ _ _ h2, this, hT _ _ _ h3]
theorem goV_sameL {eq : α → α → Bool} {hs : α → σ → σ} (hT : ∀ d e s, eq d e = true → hs d s = hs e s) : ∀ ts us : List (RTree (ι × α)),
    SameL (fun x y => lk x.1 = false ∧ lk y.1 = false ∧ eq x.2 y.2 = true) ts us → ∀ s, goV lk hs (preL ts) s = goV lk hs (preL us) s
  | [], [], _, s => rfl
  | [], _ :: _, h, s => by simp [SameL] at h
  | _ :: _, [], h, s => by simp [SameL] at h
  | t :: ts, u :: us, h, s => by
    simp only [SameL] at h
    simp only [preL, goV_append, goV_same hT t u h.1 s]
    congr 1
    funext s'
    exact goV_sameL hT ts us h.2 s'
end

theorem goV_of_eq {eq : α → α → Bool} {hs : α → σ → σ} (hT : ∀ d e s, eq d e = true → hs d s = hs e s) (t u : RTree (ι × α))
    (h : eqV lk eq t u = some true) (s : σ) : goV lk hs t.pre s = goV lk hs u.pre s := goV_same hT t u (eqV_locked t u h) s

end

end Trees
