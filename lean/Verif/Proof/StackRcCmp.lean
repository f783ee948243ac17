import Verif.Proof.StackRcTraits
/-
The stack that comparisons of shared nodes need.
-/
namespace Trees
set_option linter.unusedSimpArgs false
set_option linter.unusedVariables false
variable {α β σ : Type}
open RTree

section
variable {G : Heap α} {K : Addr → List Addr} {e : Addr → Nat}

theorem withData_fuel {r : RcRef} {a : Addr} {d : α} {f : α → M α β} {h' : Heap α} (hr : r.Is G a) (ha : G.Used a) (hv : G.val a = some d)
    (hb : 0 ≤ G.borrow a) (hf : f d (bumpE e (G.bor a (G.borrow a + 1))) = .err .fuel h') : withData r f (bumpE e G) = .err .fuel h' := by
  have h1 : dataRef a (bumpE e (G.bor a (G.borrow a + 1))) = .ok d (bumpE e (G.bor a (G.borrow a + 1))) := dataRef_ok ha.1 hv
  simp only [withData, M.bind_apply, guardShared_ok hr ha hv hb, Res.bind_ok, finally_, h1, hf]

theorem both_fuel {lk : Addr → Bool} (L : Locks lk G) {r q : RcRef} {a b : Addr} {d d' : α}
    (hr : r.Is G a) (ha : G.Used a) (hv : G.val a = some d) (hq : q.Is G b) (hb : G.Used b) (hw : G.val b = some d')
    (hl : ¬ (lk a || lk b) = true) {f : α → α → M α β}
    (hf : ∀ G', (∀ K, RdOK G K → RdOK G' K) → G'.lab = G.lab → G'.Used = G.Used → G'.size = G.size → (∀ (r : RcRef) a, r.Is G a → r.Is G' a) → Locks lk G' →
      0 ≤ G'.borrow a → 0 ≤ G'.borrow b → ∃ h', f d d' (bumpE e G') = .err .fuel h') :
    ∃ h', withData r (fun d => withData q (f d)) (bumpE e G) = .err .fuel h' := by
  have h1 : 0 ≤ G.borrow a := by by_contra h; exact hl (by rw [(L a ha).mpr h]; rfl)
  have L1 := L.bor h1
  have h2 : 0 ≤ (G.bor a (G.borrow a + 1)).borrow b := by by_contra h; exact hl (by rw [(L1 b hb).mpr h]; simp)
  obtain ⟨h', e1⟩ := hf ((G.bor a (G.borrow a + 1)).bor b ((G.bor a (G.borrow a + 1)).borrow b + 1)) (fun K R => (R.bor _ _).bor _ _) rfl rfl rfl
    (fun r a h => h) (L1.bor h2) (by
      simp only [Heap.bor, upd_apply]; split
      · split
        · omega
        · rename_i g1 g2; exact absurd g1.symm g2
      · simp; omega) (by
      have : ((G.bor a (G.borrow a + 1)).bor b ((G.bor a (G.borrow a + 1)).borrow b + 1)).borrow b = (G.bor a (G.borrow a + 1)).borrow b + 1 :=
        upd_self _ _ _
      rw [this]; exact Int.le_add_one h2)
  exact ⟨h', withData_fuel hr ha hv h1 (withData_fuel (G := G.bor a (G.borrow a + 1)) hq hb hw h2 e1)⟩

theorem iterEqRc_within (R : RdOK G K) {L : Nat} {f : RcRef → RcRef → M α Bool} {F : RTree (Addr × α) → RTree (Addr × α) → Option Bool} :
    ∀ {cs ds : List Addr} {ts us : List (RTree (Addr × α))} {i j : RawIter} {k : Nat},
    i.At G cs → j.At G ds → DenL G.lab K cs ts → DenL G.lab K ds us → (∀ c ∈ cs, G.Used c ∧ G.IsVal c) → (∀ c ∈ ds, G.Used c ∧ G.IsVal c) →
    (∀ x y c t d u e, c ∈ cs → x.Is G c → Den G.lab K c t → d ∈ ds → y.Is G d → Den G.lab K d u →
      (t.height ≤ L → f x y (bumpE e G) = ofOpt (F t u) (bumpE e G)) ∧ (L < t.height → F t u = some true → ∃ h', f x y (bumpE e G) = .err .fuel h')) →
    cs.length < k → ∀ e, (heightL ts ≤ L → iterEqRc f k i j (bumpE e G) = ofOpt (eqOL F ts us) (bumpE e G)) ∧
      (L < heightL ts → eqOL F ts us = some true → ∃ h', iterEqRc f k i j (bumpE e G) = .err .fuel h') := by
  intro cs
  induction cs with
  | nil =>
    intro ds ts us i j k hi hj ht hu hcu hdu hf hk e
    simp at ht; subst ht
    refine ⟨fun _ => ?_, fun hl => absurd hl (by simp [heightL])⟩
    exact iterEqRc_ok R hi hj (by simp) hu hcu hdu (fun x y c t d u e hc => by cases hc) hk
  | cons c cs ih =>
    intro ds ts us i j k hi hj ht hu hcu hdu hf hk e
    obtain ⟨k, rfl⟩ : ∃ n, k = n + 1 := ⟨k - 1, by simp at hk; omega⟩
    obtain ⟨t, ts', rfl, ht1, ht2⟩ := DenL_cons_left.mp ht
    obtain ⟨x, i', hx, hi', e1⟩ := iterRcNext_cons (e := e) R hi (hcu c (by simp)).1 (hcu c (by simp)).2
    simp only [iterEqRc, M.bind_apply, e1, Res.bind_ok]
    cases ds with
    | nil =>
      simp at hu; subst hu
      rw [withHandle_ok (o := some (false, j)) R hx (hcu c (by simp)).1 (by
        simp only [M.bind_apply, iterRcNext_nil hj, Res.bind_ok]; rfl)]
      exact ⟨fun _ => by simp [eqOL], fun _ h => by simp [eqOL] at h⟩
    | cons d ds =>
      obtain ⟨u, us', rfl, hu1, hu2⟩ := DenL_cons_left.mp hu
      obtain ⟨y, j', hy, hj', e2⟩ := iterRcNext_cons (e := upd e c (e c + 1)) R hj (hdu d (by simp)).1 (hdu d (by simp)).2
      have hff := fun e => hf x y c t d u e (by simp) hx ht1 (by simp) hy hu1
      by_cases hL : t.height ≤ L
      · rw [withHandle_ok (o := (F t u).map fun b => (b, j')) R hx (hcu c (by simp)).1 (by
          simp only [M.bind_apply, e2, Res.bind_ok]
          exact pair_ok R hy (hdu d (by simp)).1 (fun e => (hff e).1 hL))]
        obtain ⟨w1, w2⟩ := ih hi' hj' ht2 hu2 (fun c hc => hcu c (by simp [hc])) (fun c hc => hdu c (by simp [hc]))
          (fun x y c t d u e hc a1 a2 hd a3 a4 => hf x y c t d u e (by simp [hc]) a1 a2 (by simp [hd]) a3 a4) (k := k)
          (by simp at hk; omega) e
        refine ⟨fun hl => ?_, fun hl hn => ?_⟩
        · have := w1 (by simp only [heightL] at hl; omega)
          rcases hF : F t u with _ | _ | _ <;> simp [eqOL, this, hF]
        · have := w2 (by simp only [heightL] at hl; omega)
          rcases hF : F t u with _ | _ | _ <;> simp [eqOL, hF] at hn ⊢
          exact this hn
      · refine ⟨fun hl => absurd hl (by simp only [heightL]; omega), fun _ hn => ?_⟩
        have hF : F t u = some true := by
          rcases hF : F t u with _ | _ | _ <;> simp [eqOL, hF] at hn ⊢
        obtain ⟨h', e3⟩ := (hff (upd (upd e c (e c + 1)) d ((upd e c (e c + 1)) d + 1))).2 (by omega) hF
        refine ⟨h', ?_⟩
        rw [withHandle_fuel (h' := h')]
        · rfl
        · simp only [M.bind_apply, e2, Res.bind_ok]
          exact withHandle_fuel (by simp only [M.bind_apply, e3, Res.bind_err])

theorem iterCmpRc_within (R : RdOK G K) {L : Nat} {f : RcRef → RcRef → M α Ordering} {F : RTree (Addr × α) → RTree (Addr × α) → Option Ordering} :
    ∀ {cs ds : List Addr} {ts us : List (RTree (Addr × α))} {i j : RawIter} {k : Nat},
    i.At G cs → j.At G ds → DenL G.lab K cs ts → DenL G.lab K ds us → (∀ c ∈ cs, G.Used c ∧ G.IsVal c) → (∀ c ∈ ds, G.Used c ∧ G.IsVal c) →
    (∀ x y c t d u e, c ∈ cs → x.Is G c → Den G.lab K c t → d ∈ ds → y.Is G d → Den G.lab K d u →
      (t.height ≤ L → f x y (bumpE e G) = ofOpt (F t u) (bumpE e G)) ∧ (L < t.height → F t u = some .eq → ∃ h', f x y (bumpE e G) = .err .fuel h')) →
    cs.length < k → ∀ e, (heightL ts ≤ L → iterCmpRc f k i j (bumpE e G) = ofOpt (cmpOL F ts us) (bumpE e G)) ∧
      (L < heightL ts → cmpOL F ts us = some .eq → ∃ h', iterCmpRc f k i j (bumpE e G) = .err .fuel h') := by
  intro cs
  induction cs with
  | nil =>
    intro ds ts us i j k hi hj ht hu hcu hdu hf hk e
    simp at ht; subst ht
    refine ⟨fun _ => ?_, fun hl => absurd hl (by simp [heightL])⟩
    exact iterCmpRc_ok R hi hj (by simp) hu hcu hdu (fun x y c t d u e hc => by cases hc) hk
  | cons c cs ih =>
    intro ds ts us i j k hi hj ht hu hcu hdu hf hk e
    obtain ⟨k, rfl⟩ : ∃ n, k = n + 1 := ⟨k - 1, by simp at hk; omega⟩
    obtain ⟨t, ts', rfl, ht1, ht2⟩ := DenL_cons_left.mp ht
    obtain ⟨x, i', hx, hi', e1⟩ := iterRcNext_cons (e := e) R hi (hcu c (by simp)).1 (hcu c (by simp)).2
    simp only [iterCmpRc, M.bind_apply, e1, Res.bind_ok]
    cases ds with
    | nil =>
      simp at hu; subst hu
      rw [withHandle_ok (o := some (.gt, j)) R hx (hcu c (by simp)).1 (by
        simp only [M.bind_apply, iterRcNext_nil hj, Res.bind_ok]; rfl)]
      exact ⟨fun _ => by simp [cmpOL], fun _ h => by simp [cmpOL] at h⟩
    | cons d ds =>
      obtain ⟨u, us', rfl, hu1, hu2⟩ := DenL_cons_left.mp hu
      obtain ⟨y, j', hy, hj', e2⟩ := iterRcNext_cons (e := upd e c (e c + 1)) R hj (hdu d (by simp)).1 (hdu d (by simp)).2
      have hff := fun e => hf x y c t d u e (by simp) hx ht1 (by simp) hy hu1
      by_cases hL : t.height ≤ L
      · rw [withHandle_ok (o := (F t u).map fun b => (b, j')) R hx (hcu c (by simp)).1 (by
          simp only [M.bind_apply, e2, Res.bind_ok]
          exact pair_ok R hy (hdu d (by simp)).1 (fun e => (hff e).1 hL))]
        obtain ⟨w1, w2⟩ := ih hi' hj' ht2 hu2 (fun c hc => hcu c (by simp [hc])) (fun c hc => hdu c (by simp [hc]))
          (fun x y c t d u e hc a1 a2 hd a3 a4 => hf x y c t d u e (by simp [hc]) a1 a2 (by simp [hd]) a3 a4) (k := k)
          (by simp at hk; omega) e
        refine ⟨fun hl => ?_, fun hl hn => ?_⟩
        · have := w1 (by simp only [heightL] at hl; omega)
          rcases hF : F t u with _ | _ | _ | _ <;> simp [cmpOL, this, hF]
        · have := w2 (by simp only [heightL] at hl; omega)
          rcases hF : F t u with _ | _ | _ | _ <;> simp [cmpOL, hF] at hn ⊢
          exact this hn
      · refine ⟨fun hl => absurd hl (by simp only [heightL]; omega), fun _ hn => ?_⟩
        have hF : F t u = some .eq := by
          rcases hF : F t u with _ | _ | _ | _ <;> simp [cmpOL, hF] at hn ⊢
        obtain ⟨h', e3⟩ := (hff (upd (upd e c (e c + 1)) d ((upd e c (e c + 1)) d + 1))).2 (by omega) hF
        refine ⟨h', ?_⟩
        rw [withHandle_fuel (h' := h')]
        · rfl
        · simp only [M.bind_apply, e2, Res.bind_ok]
          exact withHandle_fuel (by simp only [M.bind_apply, e3, Res.bind_err])

theorem iterPcmpRc_within (R : RdOK G K) {L : Nat} {f : RcRef → RcRef → M α (Option Ordering)} {F : RTree (Addr × α) → RTree (Addr × α) → Option (Option Ordering)} :
    ∀ {cs ds : List Addr} {ts us : List (RTree (Addr × α))} {i j : RawIter} {k : Nat},
    i.At G cs → j.At G ds → DenL G.lab K cs ts → DenL G.lab K ds us → (∀ c ∈ cs, G.Used c ∧ G.IsVal c) → (∀ c ∈ ds, G.Used c ∧ G.IsVal c) →
    (∀ x y c t d u e, c ∈ cs → x.Is G c → Den G.lab K c t → d ∈ ds → y.Is G d → Den G.lab K d u →
      (t.height ≤ L → f x y (bumpE e G) = ofOpt (F t u) (bumpE e G)) ∧ (L < t.height → F t u = some (some .eq) → ∃ h', f x y (bumpE e G) = .err .fuel h')) →
    cs.length < k → ∀ e, (heightL ts ≤ L → iterPcmpRc f k i j (bumpE e G) = ofOpt (pcmpOL F ts us) (bumpE e G)) ∧
      (L < heightL ts → pcmpOL F ts us = some (some .eq) → ∃ h', iterPcmpRc f k i j (bumpE e G) = .err .fuel h') := by
  intro cs
  induction cs with
  | nil =>
    intro ds ts us i j k hi hj ht hu hcu hdu hf hk e
    simp at ht; subst ht
    refine ⟨fun _ => ?_, fun hl => absurd hl (by simp [heightL])⟩
    exact iterPcmpRc_ok R hi hj (by simp) hu hcu hdu (fun x y c t d u e hc => by cases hc) hk
  | cons c cs ih =>
    intro ds ts us i j k hi hj ht hu hcu hdu hf hk e
    obtain ⟨k, rfl⟩ : ∃ n, k = n + 1 := ⟨k - 1, by simp at hk; omega⟩
    obtain ⟨t, ts', rfl, ht1, ht2⟩ := DenL_cons_left.mp ht
    obtain ⟨x, i', hx, hi', e1⟩ := iterRcNext_cons (e := e) R hi (hcu c (by simp)).1 (hcu c (by simp)).2
    simp only [iterPcmpRc, M.bind_apply, e1, Res.bind_ok]
    cases ds with
    | nil =>
      simp at hu; subst hu
      rw [withHandle_ok (o := some (some .gt, j)) R hx (hcu c (by simp)).1 (by
        simp only [M.bind_apply, iterRcNext_nil hj, Res.bind_ok]; rfl)]
      exact ⟨fun _ => by simp [pcmpOL], fun _ h => by simp [pcmpOL] at h⟩
    | cons d ds =>
      obtain ⟨u, us', rfl, hu1, hu2⟩ := DenL_cons_left.mp hu
      obtain ⟨y, j', hy, hj', e2⟩ := iterRcNext_cons (e := upd e c (e c + 1)) R hj (hdu d (by simp)).1 (hdu d (by simp)).2
      have hff := fun e => hf x y c t d u e (by simp) hx ht1 (by simp) hy hu1
      by_cases hL : t.height ≤ L
      · rw [withHandle_ok (o := (F t u).map fun b => (b, j')) R hx (hcu c (by simp)).1 (by
          simp only [M.bind_apply, e2, Res.bind_ok]
          exact pair_ok R hy (hdu d (by simp)).1 (fun e => (hff e).1 hL))]
        obtain ⟨w1, w2⟩ := ih hi' hj' ht2 hu2 (fun c hc => hcu c (by simp [hc])) (fun c hc => hdu c (by simp [hc]))
          (fun x y c t d u e hc a1 a2 hd a3 a4 => hf x y c t d u e (by simp [hc]) a1 a2 (by simp [hd]) a3 a4) (k := k)
          (by simp at hk; omega) e
        refine ⟨fun hl => ?_, fun hl hn => ?_⟩
        · have := w1 (by simp only [heightL] at hl; omega)
          rcases hF : F t u with _ | _ | _ | _ | _ <;> simp [pcmpOL, this, hF]
        · have := w2 (by simp only [heightL] at hl; omega)
          rcases hF : F t u with _ | _ | _ | _ | _ <;> simp [pcmpOL, hF] at hn ⊢
          exact this hn
      · refine ⟨fun hl => absurd hl (by simp only [heightL]; omega), fun _ hn => ?_⟩
        have hF : F t u = some (some .eq) := by
          rcases hF : F t u with _ | _ | _ | _ | _ <;> simp [pcmpOL, hF] at hn ⊢
        obtain ⟨h', e3⟩ := (hff (upd (upd e c (e c + 1)) d ((upd e c (e c + 1)) d + 1))).2 (by omega) hF
        refine ⟨h', ?_⟩
        rw [withHandle_fuel (h' := h')]
        · rfl
        · simp only [M.bind_apply, e2, Res.bind_ok]
          exact withHandle_fuel (by simp only [M.bind_apply, e3, Res.bind_err])

end

section
variable {K : Addr → List Addr} {lk : Addr → Bool}

theorem rcEq_within (eq : α → α → Bool) : ∀ (L : Nat) {G : Heap α} {e : Addr → Nat} {r q : RcRef} {a b : Addr} {t u : RTree (Addr × α)},
    RdOK G K → Locks lk G → r.Is G a → G.Used a → q.Is G b → G.Used b → Den G.lab K a t → Den G.lab K b u →
    (t.height ≤ L → rcEq eq L r q (bumpE e G) = ofOpt (eqV lk eq t u) (bumpE e G)) ∧
    (L < t.height → eqV lk eq t u = some true → ∃ h', rcEq eq L r q (bumpE e G) = .err .fuel h') := by
  intro L
  induction L with
  | zero => intro G e r q a b t u _ _ _ _ _ _ _ _; exact ⟨fun hh => absurd (height_pos t) (by omega), fun _ _ => ⟨_, rfl⟩⟩
  | succ L ih =>
    intro G e r q a b t u R lks hr ha hq hb ht hu
    obtain ⟨x, ts⟩ := t
    obtain ⟨y, us⟩ := u
    simp only [Den_node] at ht hu
    obtain ⟨x1, x2⟩ := Heap.lab_some.mp ht.1
    obtain ⟨y1, y2⟩ := Heap.lab_some.mp hu.1
    have hd := both_ok (e := e) lks hr ha x2 hq hb y2 (f := fun d e => (return eq d e : M α Bool)) (o := some (eq x.2 y.2)) (by intros; rfl)
    simp only [rcEq, M.bind_apply]
    rw [hd]
    simp only [eqV, x1, y1]
    by_cases hl : (lk a || lk b) = true
    · refine ⟨fun _ => by simp [hl], fun _ h => by simp [hl] at h⟩
    · rw [if_neg hl, if_neg hl]
      simp only [ofOpt_some, Res.bind_ok]
      have l1 : 0 ≤ G.borrow a := by
        by_contra h; exact hl (by rw [(lks a ha).mpr h]; rfl)
      have l2 : 0 ≤ G.borrow b := by
        by_contra h; exact hl (by rw [(lks b hb).mpr h]; simp)
      by_cases he : eq x.2 y.2 = true
      · obtain ⟨i, i1, i2⟩ := iterRc_at (e := e) R hr ha l1
        obtain ⟨j, j1, j2⟩ := iterRc_at (e := e) R hq hb l2
        simp only [he, if_true, M.bind_apply, i1, j1, Res.bind_ok]
        rw [eqVL_eq]
        obtain ⟨w1, w2⟩ := iterEqRc_within (L := L) (f := rcEq eq L) (F := eqV lk eq) R i2 j2 ht.2 hu.2 R.kids R.kids (fun x y c t d u e hc hx ht hd hy hu =>
          ih R lks hx (R.kids c hc).1 hy (R.kids d hd).1 ht hu) (k := i.len + 1) (by rw [i2.1]; omega) e
        exact ⟨fun hl => w1 (by simp only [height] at hl; omega), fun hl hn => w2 (by simp only [height] at hl; omega) hn⟩
      · simp only [he, if_false]
        exact ⟨fun _ => rfl, fun _ h => by simp at h⟩

theorem rcCmp_within (c : α → α → Ordering) : ∀ (L : Nat) {G : Heap α} {e : Addr → Nat} {r q : RcRef} {a b : Addr} {t u : RTree (Addr × α)},
    RdOK G K → Locks lk G → r.Is G a → G.Used a → q.Is G b → G.Used b → Den G.lab K a t → Den G.lab K b u →
    (t.height ≤ L → rcCmp c L r q (bumpE e G) = ofOpt (cmpV lk c t u) (bumpE e G)) ∧
    (L < t.height → cmpV lk c t u = some .eq → ∃ h', rcCmp c L r q (bumpE e G) = .err .fuel h') := by
  intro L
  induction L with
  | zero => intro G e r q a b t u _ _ _ _ _ _ _ _; exact ⟨fun hh => absurd (height_pos t) (by omega), fun _ _ => ⟨_, rfl⟩⟩
  | succ L ih =>
    intro G e r q a b t u R lks hr ha hq hb ht hu
    obtain ⟨x, ts⟩ := t
    obtain ⟨y, us⟩ := u
    simp only [Den_node] at ht hu
    obtain ⟨x1, x2⟩ := Heap.lab_some.mp ht.1
    obtain ⟨y1, y2⟩ := Heap.lab_some.mp hu.1
    simp only [rcCmp, cmpV, x1, y1]
    refine ⟨fun hlim => ?_, fun hlim hn => ?_⟩
    · refine both_ok lks hr ha x2 hq hb y2 ?_
      intro G' RR el eu es hh L' l1 l2
      have R' := RR K R
      rw [← el] at ht hu
      have ha' : G'.Used a := by rw [eu]; exact ha
      have hb' : G'.Used b := by rw [eu]; exact hb
      rcases he : c x.2 y.2 with _ | _ | _
      · simp
      · obtain ⟨i, i1, i2⟩ := iterRc_at (e := e) R' (hh _ _ hr) ha' l1
        obtain ⟨j, j1, j2⟩ := iterRc_at (e := e) R' (hh _ _ hq) hb' l2
        simp only [he, if_true, M.bind_apply, i1, j1, Res.bind_ok]
        rw [cmpVL_eq]
        refine (iterCmpRc_within (L := L) (F := cmpV lk c) R' i2 j2 ht.2 hu.2 R'.kids R'.kids (fun x y c' t d u e hc hx ht hd hy hu =>
          ih R' L' hx (R'.kids c' hc).1 hy (R'.kids d hd).1 ht hu) (by rw [i2.1]; omega) e).1 (by simp only [height] at hlim; omega)
      · simp
    · have hl : ¬ (lk a || lk b) = true := by intro h; rw [if_pos h] at hn; simp at hn
      rw [if_neg hl] at hn
      have he : c x.2 y.2 = .eq := by
        rcases he : c x.2 y.2 with _ | _ | _ <;> rw [he] at hn <;> simp at hn ⊢
      rw [he] at hn
      simp only [cmpVL_eq] at hn
      refine both_fuel lks hr ha x2 hq hb y2 hl ?_
      intro G' RR el eu es hh L' l1 l2
      have R' := RR K R
      rw [← el] at ht hu
      have ha' : G'.Used a := by rw [eu]; exact ha
      have hb' : G'.Used b := by rw [eu]; exact hb
      obtain ⟨i, i1, i2⟩ := iterRc_at (e := e) R' (hh _ _ hr) ha' l1
      obtain ⟨j, j1, j2⟩ := iterRc_at (e := e) R' (hh _ _ hq) hb' l2
      simp only [he, if_true, M.bind_apply, i1, j1, Res.bind_ok]
      exact (iterCmpRc_within (L := L) (F := cmpV lk c) R' i2 j2 ht.2 hu.2 R'.kids R'.kids (fun x y c' t d u e hc hx ht hd hy hu =>
          ih R' L' hx (R'.kids c' hc).1 hy (R'.kids d hd).1 ht hu) (by rw [i2.1]; omega) e).2 (by simp only [height] at hlim; omega) hn

theorem rcPcmp_within (c : α → α → Option Ordering) : ∀ (L : Nat) {G : Heap α} {e : Addr → Nat} {r q : RcRef} {a b : Addr} {t u : RTree (Addr × α)},
    RdOK G K → Locks lk G → r.Is G a → G.Used a → q.Is G b → G.Used b → Den G.lab K a t → Den G.lab K b u →
    (t.height ≤ L → rcPcmp c L r q (bumpE e G) = ofOpt (pcmpV lk c t u) (bumpE e G)) ∧
    (L < t.height → pcmpV lk c t u = some (some .eq) → ∃ h', rcPcmp c L r q (bumpE e G) = .err .fuel h') := by
  intro L
  induction L with
  | zero => intro G e r q a b t u _ _ _ _ _ _ _ _; exact ⟨fun hh => absurd (height_pos t) (by omega), fun _ _ => ⟨_, rfl⟩⟩
  | succ L ih =>
    intro G e r q a b t u R lks hr ha hq hb ht hu
    obtain ⟨x, ts⟩ := t
    obtain ⟨y, us⟩ := u
    simp only [Den_node] at ht hu
    obtain ⟨x1, x2⟩ := Heap.lab_some.mp ht.1
    obtain ⟨y1, y2⟩ := Heap.lab_some.mp hu.1
    simp only [rcPcmp, pcmpV, x1, y1]
    refine ⟨fun hlim => ?_, fun hlim hn => ?_⟩
    · refine both_ok lks hr ha x2 hq hb y2 ?_
      intro G' RR el eu es hh L' l1 l2
      have R' := RR K R
      rw [← el] at ht hu
      have ha' : G'.Used a := by rw [eu]; exact ha
      have hb' : G'.Used b := by rw [eu]; exact hb
      rcases he : c x.2 y.2 with _ | _ | _ | _
      · simp
      · simp
      · obtain ⟨i, i1, i2⟩ := iterRc_at (e := e) R' (hh _ _ hr) ha' l1
        obtain ⟨j, j1, j2⟩ := iterRc_at (e := e) R' (hh _ _ hq) hb' l2
        simp only [he, if_true, M.bind_apply, i1, j1, Res.bind_ok]
        rw [pcmpVL_eq]
        refine (iterPcmpRc_within (L := L) (F := pcmpV lk c) R' i2 j2 ht.2 hu.2 R'.kids R'.kids (fun x y c' t d u e hc hx ht hd hy hu =>
          ih R' L' hx (R'.kids c' hc).1 hy (R'.kids d hd).1 ht hu) (by rw [i2.1]; omega) e).1 (by simp only [height] at hlim; omega)
      · simp
    · have hl : ¬ (lk a || lk b) = true := by intro h; rw [if_pos h] at hn; simp at hn
      rw [if_neg hl] at hn
      have he : c x.2 y.2 = (some .eq) := by
        rcases he : c x.2 y.2 with _ | _ | _ | _ <;> rw [he] at hn <;> simp at hn ⊢
      rw [he] at hn
      simp only [pcmpVL_eq] at hn
      refine both_fuel lks hr ha x2 hq hb y2 hl ?_
      intro G' RR el eu es hh L' l1 l2
      have R' := RR K R
      rw [← el] at ht hu
      have ha' : G'.Used a := by rw [eu]; exact ha
      have hb' : G'.Used b := by rw [eu]; exact hb
      obtain ⟨i, i1, i2⟩ := iterRc_at (e := e) R' (hh _ _ hr) ha' l1
      obtain ⟨j, j1, j2⟩ := iterRc_at (e := e) R' (hh _ _ hq) hb' l2
      simp only [he, if_true, M.bind_apply, i1, j1, Res.bind_ok]
      exact (iterPcmpRc_within (L := L) (F := pcmpV lk c) R' i2 j2 ht.2 hu.2 R'.kids R'.kids (fun x y c' t d u e hc hx ht hd hy hu =>
          ih R' L' hx (R'.kids c' hc).1 hy (R'.kids d hd).1 ht hu) (by rw [i2.1]; omega) e).2 (by simp only [height] at hlim; omega) hn

theorem rcNe_within (eq ne : α → α → Bool) {L : Nat} {G : Heap α} {e : Addr → Nat} {r q : RcRef} {a b : Addr} {t u : RTree (Addr × α)}
    (R : RdOK G K) (lks : Locks lk G) (hr : r.Is G a) (ha : G.Used a) (hq : q.Is G b) (hb : G.Used b) (ht : Den G.lab K a t) (hu : Den G.lab K b u)
    (o : Option Bool) (ho : o = if lk t.data.1 || lk u.data.1 then none else if ne t.data.2 u.data.2 then some true else
      (eqVL lk eq t.kids u.kids).map (! ·)) :
    (t.height ≤ L + 1 → rcNe eq ne L r q (bumpE e G) = ofOpt o (bumpE e G)) ∧
    (L + 1 < t.height → o = some false → ∃ h', rcNe eq ne L r q (bumpE e G) = .err .fuel h') := by
  subst ho
  obtain ⟨x, ts⟩ := t
  obtain ⟨y, us⟩ := u
  simp only [Den_node] at ht hu
  obtain ⟨x1, x2⟩ := Heap.lab_some.mp ht.1
  obtain ⟨y1, y2⟩ := Heap.lab_some.mp hu.1
  have hd := both_ok (e := e) lks hr ha x2 hq hb y2 (f := fun d e => (return ne d e : M α Bool)) (o := some (ne x.2 y.2)) (by intros; rfl)
  simp only [rcNe, M.bind_apply]
  rw [hd]
  simp only [data_node, kids_node, x1, y1]
  by_cases hl : (lk a || lk b) = true
  · exact ⟨fun _ => by simp [hl], fun _ h => by simp [hl] at h⟩
  · rw [if_neg hl, if_neg hl]
    simp only [ofOpt_some, Res.bind_ok]
    have l1 : 0 ≤ G.borrow a := by
      by_contra h; exact hl (by rw [(lks a ha).mpr h]; rfl)
    have l2 : 0 ≤ G.borrow b := by
      by_contra h; exact hl (by rw [(lks b hb).mpr h]; simp)
    by_cases he : ne x.2 y.2 = true
    · simp only [he, if_true]; exact ⟨fun _ => rfl, fun _ h => by simp at h⟩
    · obtain ⟨i, i1, i2⟩ := iterRc_at (e := e) R hr ha l1
      obtain ⟨j, j1, j2⟩ := iterRc_at (e := e) R hq hb l2
      have he' : ne x.2 y.2 = false := by simpa using he
      simp only [he', Bool.false_eq_true, if_false, M.bind_apply, i1, j1, Res.bind_ok]
      obtain ⟨w1, w2⟩ := iterEqRc_within (L := L) (f := rcEq eq L) (F := eqV lk eq) R i2 j2 ht.2 hu.2 R.kids R.kids (fun x y c t d u e hc hx ht hd hy hu =>
          rcEq_within eq L R lks hx (R.kids c hc).1 hy (R.kids d hd).1 ht hu) (k := i.len + 1) (by rw [i2.1]; omega) e
      rw [eqVL_eq]
      refine ⟨fun hl => ?_, fun hl hn => ?_⟩
      · rw [w1 (by simp only [height] at hl; omega)]
        cases eqOL (eqV lk eq) ts us <;> simp
      · obtain ⟨h', e3⟩ := w2 (by simp only [height] at hl; omega) (by
          cases h : eqOL (eqV lk eq) ts us <;> simp [h] at hn ⊢
          exact hn)
        exact ⟨h', by rw [e3]; rfl⟩

end
end Trees
