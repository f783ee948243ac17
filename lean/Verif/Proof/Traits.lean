import Verif.Model.Traits
import Verif.Spec.Order
import Verif.Proof.Read
/-
The trait methods compute what the specification says.
-/
namespace Trees
set_option linter.unusedSimpArgs false
variable {α σ : Type}
open RTree

section
variable {h : Heap α} {K : Addr → List Addr} {v : Addr → Option α}

/-- Shape of `iterEq`'s result on denotations. -/
def eqList {β : Type} (F : β → β → Bool) : List β → List β → Bool
  | [], [] => true
  | t :: ts, u :: us => F t u && eqList F ts us
  | _, _ => false

theorem iterEq_ok {f : Addr → Addr → M α Bool} {F : RTree α → RTree α → Bool} : ∀ {cs ds : List Addr} {ts us : List (RTree α)}
    {i j : RawIter} {k : Nat}, i.At h cs → j.At h ds → DenL v K cs ts → DenL v K ds us →
    (∀ c t d u, c ∈ cs → Den v K c t → d ∈ ds → Den v K d u → f c d h = .ok (F t u) h) → cs.length < k →
    iterEq f k i j h = .ok (eqList F ts us) h := by
  intro cs
  induction cs with
  | nil =>
    intro ds ts us i j k hi hj ht hu hf hk
    obtain ⟨k, rfl⟩ : ∃ n, k = n + 1 := ⟨k - 1, by simp at hk; omega⟩
    simp at ht; subst ht
    simp only [iterEq, M.bind_apply, hi.next_nil, Res.bind_ok]
    cases ds with
    | nil => simp at hu; subst hu; simp [hj.next_nil, eqList]
    | cons d ds =>
      obtain ⟨u, us', rfl, _, _⟩ := DenL_cons_left.mp hu
      obtain ⟨j', e, _⟩ := hj.next_cons
      simp [e, eqList]
  | cons c cs ih =>
    intro ds ts us i j k hi hj ht hu hf hk
    obtain ⟨k, rfl⟩ : ∃ n, k = n + 1 := ⟨k - 1, by simp at hk; omega⟩
    obtain ⟨t, ts', rfl, ht1, ht2⟩ := DenL_cons_left.mp ht
    obtain ⟨i', ei, hi'⟩ := hi.next_cons
    simp only [iterEq, M.bind_apply, ei, Res.bind_ok]
    cases ds with
    | nil => simp at hu; subst hu; simp [hj.next_nil, eqList]
    | cons d ds =>
      obtain ⟨u, us', rfl, hu1, hu2⟩ := DenL_cons_left.mp hu
      obtain ⟨j', ej, hj'⟩ := hj.next_cons
      simp only [M.bind_apply, ej, Res.bind_ok, hf c t d u (by simp) ht1 (by simp) hu1]
      have := ih hi' hj' ht2 hu2 (fun c t d u hc h1 hd h2 => hf c t d u (by simp [hc]) h1 (by simp [hd]) h2) (k := k)
        (by simp at hk; omega)
      by_cases hF : F t u = true
      · simp [eqList, this, hF]
      · simp [eqList, hF]

def pcmpList {β : Type} (F : β → β → Option Ordering) : List β → List β → Option Ordering
  | [], [] => some .eq
  | [], _ :: _ => some .lt
  | _ :: _, [] => some .gt
  | t :: ts, u :: us => pthen (F t u) (pcmpList F ts us)

theorem iterPcmp_ok {f : Addr → Addr → M α (Option Ordering)} {F : RTree α → RTree α → Option Ordering} :
    ∀ {cs ds : List Addr} {ts us : List (RTree α)}
    {i j : RawIter} {k : Nat}, i.At h cs → j.At h ds → DenL v K cs ts → DenL v K ds us →
    (∀ c t d u, c ∈ cs → Den v K c t → d ∈ ds → Den v K d u → f c d h = .ok (F t u) h) → cs.length < k →
    iterPcmp f k i j h = .ok (pcmpList F ts us) h := by
  intro cs
  induction cs with
  | nil =>
    intro ds ts us i j k hi hj ht hu hf hk
    obtain ⟨k, rfl⟩ : ∃ n, k = n + 1 := ⟨k - 1, by simp at hk; omega⟩
    simp at ht; subst ht
    simp only [iterPcmp, M.bind_apply, hi.next_nil, Res.bind_ok]
    cases ds with
    | nil => simp at hu; subst hu; simp [hj.next_nil, pcmpList]
    | cons d ds =>
      obtain ⟨u, us', rfl, _, _⟩ := DenL_cons_left.mp hu
      obtain ⟨j', e, _⟩ := hj.next_cons
      simp [e, pcmpList]
  | cons c cs ih =>
    intro ds ts us i j k hi hj ht hu hf hk
    obtain ⟨k, rfl⟩ : ∃ n, k = n + 1 := ⟨k - 1, by simp at hk; omega⟩
    obtain ⟨t, ts', rfl, ht1, ht2⟩ := DenL_cons_left.mp ht
    obtain ⟨i', ei, hi'⟩ := hi.next_cons
    simp only [iterPcmp, M.bind_apply, ei, Res.bind_ok]
    cases ds with
    | nil => simp at hu; subst hu; simp [hj.next_nil, pcmpList]
    | cons d ds =>
      obtain ⟨u, us', rfl, hu1, hu2⟩ := DenL_cons_left.mp hu
      obtain ⟨j', ej, hj'⟩ := hj.next_cons
      simp only [M.bind_apply, ej, Res.bind_ok, hf c t d u (by simp) ht1 (by simp) hu1]
      have := ih hi' hj' ht2 hu2 (fun c t d u hc h1 hd h2 => hf c t d u (by simp [hc]) h1 (by simp [hd]) h2) (k := k)
        (by simp at hk; omega)
      rcases hF : F t u with _ | _ | _ | _ <;> simp [pcmpList, this, pthen, hF]

def cmpList {β : Type} (F : β → β → Ordering) : List β → List β → Ordering
  | [], [] => .eq
  | [], _ :: _ => .lt
  | _ :: _, [] => .gt
  | t :: ts, u :: us => (F t u).then (cmpList F ts us)

theorem iterCmp_ok {f : Addr → Addr → M α Ordering} {F : RTree α → RTree α → Ordering} :
    ∀ {cs ds : List Addr} {ts us : List (RTree α)}
    {i j : RawIter} {k : Nat}, i.At h cs → j.At h ds → DenL v K cs ts → DenL v K ds us →
    (∀ c t d u, c ∈ cs → Den v K c t → d ∈ ds → Den v K d u → f c d h = .ok (F t u) h) → cs.length < k →
    iterCmp f k i j h = .ok (cmpList F ts us) h := by
  intro cs
  induction cs with
  | nil =>
    intro ds ts us i j k hi hj ht hu hf hk
    obtain ⟨k, rfl⟩ : ∃ n, k = n + 1 := ⟨k - 1, by simp at hk; omega⟩
    simp at ht; subst ht
    simp only [iterCmp, M.bind_apply, hi.next_nil, Res.bind_ok]
    cases ds with
    | nil => simp at hu; subst hu; simp [hj.next_nil, cmpList]
    | cons d ds =>
      obtain ⟨u, us', rfl, _, _⟩ := DenL_cons_left.mp hu
      obtain ⟨j', e, _⟩ := hj.next_cons
      simp [e, cmpList]
  | cons c cs ih =>
    intro ds ts us i j k hi hj ht hu hf hk
    obtain ⟨k, rfl⟩ : ∃ n, k = n + 1 := ⟨k - 1, by simp at hk; omega⟩
    obtain ⟨t, ts', rfl, ht1, ht2⟩ := DenL_cons_left.mp ht
    obtain ⟨i', ei, hi'⟩ := hi.next_cons
    simp only [iterCmp, M.bind_apply, ei, Res.bind_ok]
    cases ds with
    | nil => simp at hu; subst hu; simp [hj.next_nil, cmpList]
    | cons d ds =>
      obtain ⟨u, us', rfl, hu1, hu2⟩ := DenL_cons_left.mp hu
      obtain ⟨j', ej, hj'⟩ := hj.next_cons
      simp only [M.bind_apply, ej, Res.bind_ok, hf c t d u (by simp) ht1 (by simp) hu1]
      have := ih hi' hj' ht2 hu2 (fun c t d u hc h1 hd h2 => hf c t d u (by simp [hc]) h1 (by simp [hd]) h2) (k := k)
        (by simp at hk; omega)
      rcases hF : F t u with _ | _ | _ <;> simp [cmpList, this, hF]

theorem forIter_ok {f : Addr → σ → M α σ} {F : RTree α → σ → σ} : ∀ {cs : List Addr} {ts : List (RTree α)}
    {i : RawIter} {k : Nat} {s : σ}, i.At h cs → DenL v K cs ts →
    (∀ c t s, c ∈ cs → Den v K c t → f c s h = .ok (F t s) h) → cs.length < k →
    forIter f k i s h = .ok (ts.foldl (fun s t => F t s) s) h := by
  intro cs
  induction cs with
  | nil =>
    intro ts i k s hi ht hf hk
    obtain ⟨k, rfl⟩ : ∃ n, k = n + 1 := ⟨k - 1, by simp at hk; omega⟩
    simp at ht; subst ht
    simp [forIter, hi.next_nil]
  | cons c cs ih =>
    intro ts i k s hi ht hf hk
    obtain ⟨k, rfl⟩ : ∃ n, k = n + 1 := ⟨k - 1, by simp at hk; omega⟩
    obtain ⟨t, ts', rfl, ht1, ht2⟩ := DenL_cons_left.mp ht
    obtain ⟨i', ei, hi'⟩ := hi.next_cons
    simp only [forIter, M.bind_apply, ei, Res.bind_ok, hf c t s (by simp) ht1, List.foldl_cons]
    exact ih hi' ht2 (fun c t s hc h1 => hf c t s (by simp [hc]) h1) (by simp at hk; omega)

end

/-! ### On nodes -/

mutual
def eqB (eq : α → α → Bool) : RTree α → RTree α → Bool
  | node d ks, node e us => eq d e && eqBL eq ks us
def eqBL (eq : α → α → Bool) : List (RTree α) → List (RTree α) → Bool
  | [], [] => true
  | t :: ts, u :: us => eqB eq t u && eqBL eq ts us
  | _, _ => false
end

theorem eqBL_eq (eq : α → α → Bool) : ∀ ts us, eqBL eq ts us = eqList (eqB eq) ts us
  | [], [] => by simp [eqBL, eqList]
  | [], _ :: _ => by simp [eqBL, eqList]
  | _ :: _, [] => by simp [eqBL, eqList]
  | t :: ts, u :: us => by simp [eqBL, eqList, eqBL_eq eq ts us]

theorem pcmpL_eq (c : α → α → Option Ordering) : ∀ ts us, pcmpL c ts us = pcmpList (pcmp c) ts us
  | [], [] => by simp [pcmpL, pcmpList]
  | [], _ :: _ => by simp [pcmpL, pcmpList]
  | _ :: _, [] => by simp [pcmpL, pcmpList]
  | t :: ts, u :: us => by simp [pcmpL, pcmpList, pcmpL_eq c ts us]

theorem cmpL_eq (c : α → α → Ordering) : ∀ ts us, cmpL c ts us = cmpList (cmp c) ts us
  | [], [] => by simp [cmpL, cmpList]
  | [], _ :: _ => by simp [cmpL, cmpList]
  | _ :: _, [] => by simp [cmpL, cmpList]
  | t :: ts, u :: us => by simp [cmpL, cmpList, cmpL_eq c ts us]

mutual
theorem eqB_iff (eq : α → α → Bool) : ∀ t u : RTree α, eqB eq t u = true ↔ RTree.Same (fun d e => eq d e = true) t u
  | node d ks, node e us => by simp [eqB, RTree.Same, eqBL_iff eq ks us]
theorem eqBL_iff (eq : α → α → Bool) : ∀ ts us : List (RTree α), eqBL eq ts us = true ↔ SameL (fun d e => eq d e = true) ts us
  | [], [] => by simp [eqBL, SameL]
  | [], _ :: _ => by simp [eqBL, SameL]
  | _ :: _, [] => by simp [eqBL, SameL]
  | t :: ts, u :: us => by simp [eqBL, SameL, eqB_iff eq t u, eqBL_iff eq ts us]
end

mutual
theorem same_eq : ∀ t u : RTree α, RTree.Same (fun d e => d = e) t u ↔ t = u
  | node d ks, node e us => by simp [RTree.Same, sameL_eq ks us]
theorem sameL_eq : ∀ ts us : List (RTree α), SameL (fun d e => d = e) ts us ↔ ts = us
  | [], [] => by simp [SameL]
  | [], _ :: _ => by simp [SameL]
  | _ :: _, [] => by simp [SameL]
  | t :: ts, u :: us => by simp [SameL, same_eq t u, sameL_eq ts us]
end

/-- What `Hash` feeds to the hasher. -/
theorem foldl_hash (hs : α → σ → σ) (s : σ) : ∀ ts : List (RTree α),
    ts.foldl (fun s t => t.pre.foldl (fun s d => hs d s) s) s = (preL ts).foldl (fun s d => hs d s) s := by
  intro ts
  induction ts generalizing s with
  | nil => simp
  | cons t ts ih => simp [ih]

theorem renderL_foldl (sh : α → List Char) : ∀ (ts : List (RTree α)) (o : List Char),
    ts.foldl (fun o t => o ++ render sh t ++ [' ']) o = o ++ renderL sh ts := by
  intro ts
  induction ts with
  | nil => simp [renderL]
  | cons t ts ih => intro o; rw [List.foldl_cons, ih]; simp [renderL]

theorem renderL_cons' (sh : α → List Char) (d : α) (k : RTree α) (ks) :
    render sh (node d (k :: ks)) = sh d ++ ['(', ' '] ++ renderL sh (k :: ks) ++ [')'] := by
  simp [render, renderL]

section
variable {h : Heap α} {K : Addr → List Addr} (hI : Inv h K)
include hI

theorem Den.parts {a : Addr} {t : RTree α} (ha : h.Used a) (hd : Den h.val K a t) :
    dataRef a h = .ok t.data h ∧ (∃ it, iter a h = .ok it h ∧ it.At h (K a)) ∧ DenL h.val K (K a) t.kids ∧
      (K a).length ≤ (h.size a).descendants ∧ ∀ c ∈ K a, h.Used c ∧ (h.size c).descendants < (h.size a).descendants := by
  cases t with
  | node d ks =>
    simp only [Den_node] at hd
    refine ⟨dataRef_ok ha.1 hd.1, iter_at hI ha, hd.2, ?_, ?_⟩
    · have h1 := hI.desc_eq ha (v := h.val) (t := node d ks) (by simpa using hd)
      have h2 := hd.2.length
      have : ∀ us : List (RTree α), us.length ≤ countL us := by
        intro us
        induction us with
        | nil => simp
        | cons u us ih => cases u; simp; omega
      have := this ks
      simp at h1; omega
    · intro c hc
      exact ⟨hI.used_of_mem hc, hI.desc_lt hc⟩

theorem nodeEq_ok (eq : α → α → Bool) : ∀ (k : Nat) {a b : Addr} {t u : RTree α}, h.Used a → h.Used b →
    Den h.val K a t → Den h.val K b u → (h.size a).descendants < k → nodeEq eq k a b h = .ok (eqB eq t u) h := by
  intro k
  induction k with
  | zero => intro a b t u _ _ _ _ hk; omega
  | succ k ih =>
    intro a b t u ha hb ht hu hk
    obtain ⟨a1, ⟨i, a2, a3⟩, a4, a5, a6⟩ := Den.parts hI ha ht
    obtain ⟨b1, ⟨j, b2, b3⟩, b4, _, b6⟩ := Den.parts hI hb hu
    simp only [nodeEq, M.bind_apply, a1, b1, Res.bind_ok]
    cases t with
    | node d ks =>
    cases u with
    | node e us =>
    simp only [data_node, kids_node] at *
    have hit := iterEq_ok (f := nodeEq eq k) (F := eqB eq) (k := i.len + 1) a3 b3 a4 b4 (fun c t d u hc h1 hd h2 =>
      ih (a6 c hc).1 (b6 d hd).1 h1 h2 (by have := (a6 c hc).2; omega)) (by rw [a3.1]; omega)
    by_cases he : eq d e = true
    · simp [eqB, he, a2, b2, hit, eqBL_eq]
    · simp [eqB, he]

theorem nodeNe_ok (eq ne : α → α → Bool) (k : Nat) {a b : Addr} {t u : RTree α} (ha : h.Used a) (hb : h.Used b)
    (ht : Den h.val K a t) (hu : Den h.val K b u) (hk : (h.size a).descendants < k) :
    nodeNe eq ne k a b h = .ok (ne t.data u.data || !(eqBL eq t.kids u.kids)) h := by
  obtain ⟨a1, ⟨i, a2, a3⟩, a4, a5, a6⟩ := Den.parts hI ha ht
  obtain ⟨b1, ⟨j, b2, b3⟩, b4, _, b6⟩ := Den.parts hI hb hu
  have hit := iterEq_ok (f := nodeEq eq k) (F := eqB eq) (k := i.len + 1) a3 b3 a4 b4 (fun c t d u hc h1 hd h2 =>
    nodeEq_ok hI eq k (a6 c hc).1 (b6 d hd).1 h1 h2 (by have := (a6 c hc).2; omega)) (by rw [a3.1]; omega)
  simp only [nodeNe, M.bind_apply, a1, b1, Res.bind_ok]
  cases he : ne t.data u.data
  · simp [a2, b2, hit, eqBL_eq]
  · simp

theorem nodePcmp_ok (pc : α → α → Option Ordering) : ∀ (k : Nat) {a b : Addr} {t u : RTree α}, h.Used a → h.Used b →
    Den h.val K a t → Den h.val K b u → (h.size a).descendants < k → nodePcmp pc k a b h = .ok (pcmp pc t u) h := by
  intro k
  induction k with
  | zero => intro a b t u _ _ _ _ hk; omega
  | succ k ih =>
    intro a b t u ha hb ht hu hk
    obtain ⟨a1, ⟨i, a2, a3⟩, a4, a5, a6⟩ := Den.parts hI ha ht
    obtain ⟨b1, ⟨j, b2, b3⟩, b4, _, b6⟩ := Den.parts hI hb hu
    simp only [nodePcmp, M.bind_apply, a1, b1, Res.bind_ok]
    cases t with
    | node d ks =>
    cases u with
    | node e us =>
    simp only [data_node, kids_node] at *
    have hit := iterPcmp_ok (f := nodePcmp pc k) (F := pcmp pc) (k := i.len + 1) a3 b3 a4 b4 (fun c t d u hc h1 hd h2 =>
      ih (a6 c hc).1 (b6 d hd).1 h1 h2 (by have := (a6 c hc).2; omega)) (by rw [a3.1]; omega)
    rcases he : pc d e with _ | _ | _ | _
    · simp [pcmp, he, pthen]
    · simp [pcmp, he, pthen]
    · simp [pcmp, he, pthen, a2, b2, hit, pcmpL_eq]
    · simp [pcmp, he, pthen]

theorem nodeCmp_ok (c : α → α → Ordering) : ∀ (k : Nat) {a b : Addr} {t u : RTree α}, h.Used a → h.Used b →
    Den h.val K a t → Den h.val K b u → (h.size a).descendants < k → nodeCmp c k a b h = .ok (cmp c t u) h := by
  intro k
  induction k with
  | zero => intro a b t u _ _ _ _ hk; omega
  | succ k ih =>
    intro a b t u ha hb ht hu hk
    obtain ⟨a1, ⟨i, a2, a3⟩, a4, a5, a6⟩ := Den.parts hI ha ht
    obtain ⟨b1, ⟨j, b2, b3⟩, b4, _, b6⟩ := Den.parts hI hb hu
    simp only [nodeCmp, M.bind_apply, a1, b1, Res.bind_ok]
    cases t with
    | node d ks =>
    cases u with
    | node e us =>
    simp only [data_node, kids_node] at *
    have hit := iterCmp_ok (f := nodeCmp c k) (F := cmp c) (k := i.len + 1) a3 b3 a4 b4 (fun c t d u hc h1 hd h2 =>
      ih (a6 c hc).1 (b6 d hd).1 h1 h2 (by have := (a6 c hc).2; omega)) (by rw [a3.1]; omega)
    rcases he : c d e with _ | _ | _
    · simp [cmp, he]
    · simp [cmp, he, a2, b2, hit, cmpL_eq]
    · simp [cmp, he]

theorem nodeHash_ok (hs : α → σ → σ) : ∀ (k : Nat) {a : Addr} {t : RTree α} {s : σ}, h.Used a →
    Den h.val K a t → (h.size a).descendants < k → nodeHash hs k a s h = .ok (t.pre.foldl (fun s d => hs d s) s) h := by
  intro k
  induction k with
  | zero => intro a t s _ _ hk; omega
  | succ k ih =>
    intro a t s ha ht hk
    obtain ⟨a1, ⟨i, a2, a3⟩, a4, a5, a6⟩ := Den.parts hI ha ht
    cases t with
    | node d ks =>
    simp only [data_node, kids_node] at *
    have hit := fun s => forIter_ok (f := nodeHash hs k) (F := fun t s => t.pre.foldl (fun s d => hs d s) s) (k := i.len + 1) (s := s)
      a3 a4 (fun c t s hc h1 => ih (a6 c hc).1 h1 (by have := (a6 c hc).2; omega)) (by rw [a3.1]; omega)
    simp only [nodeHash, M.bind_apply, a1, a2, Res.bind_ok, hit, foldl_hash]
    simp

theorem nodeFmt_ok (sh : α → List Char) : ∀ (k : Nat) {a : Addr} {t : RTree α} {o : List Char}, h.Used a →
    Den h.val K a t → (h.size a).descendants < k → nodeFmt sh k a o h = .ok (o ++ render sh t) h := by
  intro k
  induction k with
  | zero => intro a t s _ _ hk; omega
  | succ k ih =>
    intro a t o ha ht hk
    obtain ⟨a1, ⟨i, a2, a3⟩, a4, a5, a6⟩ := Den.parts hI ha ht
    have hh := hI.l.head a ha
    cases t with
    | node d ks =>
    simp only [data_node, kids_node] at *
    have hit := fun s => forIter_ok (f := fun c o => do return (← nodeFmt sh k c o) ++ [' ']) (F := fun t o => o ++ render sh t ++ [' '])
      (k := i.len + 1) (s := s) a3 a4 (fun c t s hc h1 => by
        have := ih (o := s) (a6 c hc).1 h1 (by have := (a6 c hc).2; omega)
        simp [this]) (by rw [a3.1]; omega)
    cases hK : K a with
    | nil =>
      rw [hK] at hh a4
      simp at a4; subst a4
      have : hasNoChild a h = .ok true h := by simp [hasNoChild, getHead, ha.1, hh]
      simp [nodeFmt, this, a1, render]
    | cons c cs =>
      rw [hK] at hh
      rw [hK] at a4
      obtain ⟨t, ts, rfl, _, _⟩ := DenL_cons_left.mp a4
      have : hasNoChild a h = .ok false h := by simp [hasNoChild, getHead, ha.1, hh]
      simp only [nodeFmt, M.bind_apply, this, Res.bind_ok]
      simp only [Bool.false_eq_true, if_false, M.bind_apply, a1, Res.bind_ok, a2, hit, renderL_foldl, M.pure_apply]
      rw [renderL_cons']
      simp

/-! ### On forests -/

theorem Den.fparts {a : Addr} {ts : List (RTree α)} (ha : h.Used a) (hd : DenL h.val K (K a) ts) :
    (∃ it, iter a h = .ok it h ∧ it.At h (K a)) ∧ (∀ c ∈ K a, h.Used c ∧ (h.size c).descendants < (h.size a).descendants) :=
  ⟨iter_at hI ha, fun _ hc => ⟨hI.used_of_mem hc, hI.desc_lt hc⟩⟩

theorem eqForest_ok (eq : α → α → Bool) {a b : Addr} {ts us : List (RTree α)} (ha : h.Used a) (hb : h.Used b)
    (ht : DenL h.val K (K a) ts) (hu : DenL h.val K (K b) us) : eqForest eq a b h = .ok (eqBL eq ts us) h := by
  obtain ⟨⟨i, a2, a3⟩, a6⟩ := Den.fparts hI ha ht
  obtain ⟨⟨j, b2, b3⟩, b6⟩ := Den.fparts hI hb hu
  simp only [eqForest, M.fuelled_apply, M.bind_apply, a2, b2, Res.bind_ok]
  rw [eqBL_eq]
  exact iterEq_ok a3 b3 ht hu (fun c t d u hc h1 hd h2 =>
    nodeEq_ok hI eq _ (a6 c hc).1 (b6 d hd).1 h1 h2 (by have := (a6 c hc).2; simp only [depthFuel]; omega)) (by rw [a3.1]; omega)

theorem pcmpForest_ok (pc : α → α → Option Ordering) {a b : Addr} {ts us : List (RTree α)} (ha : h.Used a) (hb : h.Used b)
    (ht : DenL h.val K (K a) ts) (hu : DenL h.val K (K b) us) : pcmpForest pc a b h = .ok (pcmpL pc ts us) h := by
  obtain ⟨⟨i, a2, a3⟩, a6⟩ := Den.fparts hI ha ht
  obtain ⟨⟨j, b2, b3⟩, b6⟩ := Den.fparts hI hb hu
  simp only [pcmpForest, M.fuelled_apply, M.bind_apply, a2, b2, Res.bind_ok]
  rw [pcmpL_eq]
  exact iterPcmp_ok a3 b3 ht hu (fun c t d u hc h1 hd h2 =>
    nodePcmp_ok hI pc _ (a6 c hc).1 (b6 d hd).1 h1 h2 (by have := (a6 c hc).2; simp only [depthFuel]; omega)) (by rw [a3.1]; omega)

theorem cmpForest_ok (c : α → α → Ordering) {a b : Addr} {ts us : List (RTree α)} (ha : h.Used a) (hb : h.Used b)
    (ht : DenL h.val K (K a) ts) (hu : DenL h.val K (K b) us) : cmpForest c a b h = .ok (cmpL c ts us) h := by
  obtain ⟨⟨i, a2, a3⟩, a6⟩ := Den.fparts hI ha ht
  obtain ⟨⟨j, b2, b3⟩, b6⟩ := Den.fparts hI hb hu
  simp only [cmpForest, M.fuelled_apply, M.bind_apply, a2, b2, Res.bind_ok]
  rw [cmpL_eq]
  exact iterCmp_ok a3 b3 ht hu (fun x t d u hc h1 hd h2 =>
    nodeCmp_ok hI c _ (a6 x hc).1 (b6 d hd).1 h1 h2 (by have := (a6 x hc).2; simp only [depthFuel]; omega)) (by rw [a3.1]; omega)

theorem hashForest_ok (hs : α → σ → σ) {a : Addr} {ts : List (RTree α)} {s : σ} (ha : h.Used a)
    (ht : DenL h.val K (K a) ts) : hashForest hs a s h = .ok ((preL ts).foldl (fun s d => hs d s) s) h := by
  obtain ⟨⟨i, a2, a3⟩, a6⟩ := Den.fparts hI ha ht
  simp only [hashForest, M.fuelled_apply, M.bind_apply, a2, Res.bind_ok]
  rw [← foldl_hash]
  exact forIter_ok (F := fun t s => t.pre.foldl (fun s d => hs d s) s) a3 ht (fun c t s hc h1 =>
    nodeHash_ok hI hs _ (a6 c hc).1 h1 (by have := (a6 c hc).2; simp only [depthFuel]; omega)) (by rw [a3.1]; omega)

theorem fmtForest_ok (sh : α → List Char) {a : Addr} {ts : List (RTree α)} (ha : h.Used a)
    (ht : DenL h.val K (K a) ts) : fmtForest sh a h = .ok (renderForest sh ts) h := by
  obtain ⟨⟨i, a2, a3⟩, a6⟩ := Den.fparts hI ha ht
  have hh := hI.l.head a ha
  have hit := fun s => forIter_ok (f := fun c o => do return (← nodeFmt sh (depthFuel a h) c o) ++ [' '])
      (F := fun t o => o ++ render sh t ++ [' '])
      (k := i.len + 1) (s := s) a3 ht (fun c t s hc h1 => by
        have := nodeFmt_ok hI sh (depthFuel a h) (o := s) (a6 c hc).1 h1 (by have := (a6 c hc).2; simp only [depthFuel]; omega)
        simp [this]) (by rw [a3.1]; omega)
  cases hK : K a with
  | nil =>
    rw [hK] at hh ht
    simp at ht; subst ht
    have : hasNoChild a h = .ok true h := by simp [hasNoChild, getHead, ha.1, hh]
    simp [fmtForest, this, renderForest]
  | cons c cs =>
    rw [hK] at hh ht
    obtain ⟨t, ts, rfl, _, _⟩ := DenL_cons_left.mp ht
    have : hasNoChild a h = .ok false h := by simp [hasNoChild, getHead, ha.1, hh]
    simp only [fmtForest, M.fuelled_apply, M.bind_apply, this, Res.bind_ok]
    simp only [Bool.false_eq_true, if_false, M.bind_apply, Res.bind_ok, a2, hit, renderL_foldl, M.pure_apply]
    simp [renderForest]
end

end Trees
