import Verif.Proof.Verdict
import Verif.Model.Visits
/-
What an accepted sequence of visits has been turned into (C47).
-/
namespace Trees
set_option linter.unusedSimpArgs false
set_option linter.unusedVariables false
variable {α β : Type}
open RTree

/-- A block whose first `child` slots are filled, in memory. -/
structure Shape (H : Heap α) (K : Addr → List Addr) (base child : Nat) : Prop where
  live : ∀ i : Nat, i < child → H.live (base + i) = true
  head : ∀ i : Nat, i < child → H.head (base + i) = (K (base + i)).head?
  links : ∀ i : Nat, i < child → Links H.prev H.next none (K (base + i)) none
  len : ∀ i : Nat, i < child → (K (base + i)).length = min (H.size (base + i)).degree (child - 1 - degs H base 0 i)
  flat : (List.range child).flatMap (fun i => K (base + i)) = List.range' (base + 1) (child - 1)
  up : ∀ (i : Nat) c, i < child → c ∈ K (base + i) → base + i < c ∧ c < base + child
  val : ∀ i : Nat, 0 < i → i < child → (H.val (base + i)).isSome = true

/-- What a node says about itself. -/
def Heap.sized (H : Heap α) (a : Addr) : Option (α × Size) := (H.val a).map fun d => (d, H.size a)

theorem collect_any {H : Heap α} : ∀ (cs : List Addr) (n m : Nat) (l : Option Addr), (∀ c ∈ cs, H.live c = true) → Links H.prev H.next l cs none → cs.length ≤ n → cs.length ≤ m →
    (m = 0 → n = 0) → RawIter.collect m ⟨cs.head?, n⟩ H = .ok cs H
  | [], n, m, l, _, _, _, _, hm => by
    cases m with
    | zero => simp [hm rfl, RawIter.collect, RawIter.next]
    | succ m => cases n <;> simp [RawIter.collect, RawIter.next, uncountedNext]
  | c :: cs, n, m, l, hl, hk, hn, hm, h0 => by
    obtain ⟨n, rfl⟩ : ∃ n', n = n' + 1 := ⟨n - 1, by simp at hn; aomega⟩
    obtain ⟨m, rfl⟩ : ∃ m', m = m' + 1 := ⟨m - 1, by simp at hm; aomega⟩
    have hx : H.next c = cs.head? := by have := hk.2.1; simpa using this
    by_cases hmn : m = 0 ∧ n ≠ 0
    · -- the budget is used up, but there is nothing left
      obtain ⟨rfl, hn'⟩ := hmn
      have : cs = [] := by
        cases cs with
        | nil => rfl
        | cons _ _ => simp at hm
      subst this
      simp only [List.head?_nil] at hx
      obtain ⟨n, rfl⟩ : ∃ n', n = n' + 1 := ⟨n - 1, by aomega⟩
      simp [RawIter.collect, RawIter.next, uncountedNext, hl c (by simp), hx]
    · have ih := collect_any cs n m (some c) (fun x hx => hl x (by simp [hx])) hk.2.2 (by simpa using hn) (by simpa using hm) (by
        intro h; by_contra hc; exact hmn ⟨h, hc⟩)
      simp [RawIter.collect, RawIter.next, uncountedNext, hl c (by simp), hx, ih]

theorem Shape.kid {H : Heap α} {K : Addr → List Addr} {base child : Nat} (S : Shape H K base child) {i : Nat} (hi : i < child) {c : Addr} (hc : c ∈ K (base + i)) :
    ∃ j : Nat, i < j ∧ j < child ∧ c = base + j := by
  have := S.up i c hi hc
  exact ⟨c - base, by aomega, by aomega, by aomega⟩

theorem Shape.children {H : Heap α} {K : Addr → List Addr} {base child : Nat} (S : Shape H K base child) {i : Nat} (hi : i < child) :
    Trees.children (base + i) H = .ok (K (base + i)) H := by
  have hl := S.live i hi
  have hh := S.head i hi
  cases hK : K (base + i) with
  | nil =>
    rw [hK] at hh
    simp [Trees.children, iter, hl, hh, RawIter.collect, RawIter.next]
  | cons c cs =>
    have hle : (K (base + i)).length ≤ (H.size (base + i)).degree := by rw [S.len i hi]; exact Nat.min_le_left _ _
    have hlk := S.links i hi
    rw [hK] at hh hle hlk
    simp only [List.head?_cons] at hh
    have := collect_any (H := H) (c :: cs) (H.size (base + i)).degree (H.size (base + i)).degree none (fun x hx => by
      obtain ⟨j, -, hj, rfl⟩ := S.kid hi (hK ▸ hx)
      exact S.live j hj) hlk hle hle id
    simp only [List.head?_cons] at this
    simp [Trees.children, iter, hl, hh, this]

theorem Shape.den {H : Heap α} {K : Addr → List Addr} {base child : Nat} (S : Shape H K base child) :
    ∀ (n i : Nat), (0 < i ∨ (H.val base).isSome = true) → i < child → child - i ≤ n → ∃ t, Den H.sized K (base + i) t
  | 0, i, h0, hi, hn => absurd hn (by aomega)
  | n+1, i, h0, hi, hn => by
    have hv : (H.val (base + i)).isSome = true := by
      cases i with
      | zero => exact h0.resolve_left (Nat.lt_irrefl _)
      | succ i => exact S.val _ (Nat.succ_pos _) hi
    obtain ⟨d, hd⟩ := Option.isSome_iff_exists.mp hv
    have : ∀ cs : List Addr, (∀ c ∈ cs, c ∈ K (base + i)) → ∃ ts, DenL H.sized K cs ts := by
      intro cs
      induction cs with
      | nil => intro _; exact ⟨[], trivial⟩
      | cons c cs ih =>
        intro h
        obtain ⟨ts, hts⟩ := ih (fun x hx => h x (by simp [hx]))
        obtain ⟨j, j1, j2, rfl⟩ := S.kid hi (h c (by simp))
        obtain ⟨t, ht⟩ := Shape.den S n j (.inl (by aomega)) j2 (by aomega)
        exact ⟨t :: ts, ht, hts⟩
    obtain ⟨ts, hts⟩ := this _ (fun _ h => h)
    exact ⟨.node (d, H.size (base + i)) ts, by simp [Heap.sized, hd], hts⟩

theorem Shape.read {H : Heap α} {K : Addr → List Addr} {base child : Nat} (S : Shape H K base child) :
    ∀ (k i : Nat) {t}, i < child → Den H.sized K (base + i) t → child - i ≤ k → readSized k (base + i) H = .ok t H
  | 0, i, t, hi, _, hk => absurd hk (by aomega)
  | k+1, i, .node d ts, hi, hd, hk => by
    simp only [Den_node] at hd
    obtain ⟨x, hx, rfl⟩ := Option.map_eq_some_iff.mp hd.1
    have hl := S.live i hi
    have hm : readMany (readSized k) (K (base + i)) H = .ok ts H := by
      refine readMany_ok (R := Den H.sized K) ?_ (DenL_forall₂.mp hd.2)
      intro c hc u hu
      obtain ⟨j, j1, j2, rfl⟩ := S.kid hi hc
      exact S.read k j j2 hu (by aomega)
    have hf : (H.data (base + i)).isForest = false := by
      cases hd' : H.data (base + i) <;> simp [Heap.val, hd', Data.val?] at hx <;> rfl
    have hn : nodeCount (base + i) H = .ok ((H.size (base + i)).descendants + 1) H := by
      simp [nodeCount, hl, hf]
    have hg : degree (base + i) H = .ok (H.size (base + i)).degree H := by simp [degree, hl]
    simp only [readSized, M.bind_apply, dataRef_ok hl hx, Res.bind_ok, hg, hn, M.pure_apply, S.children hi, hm]
    simp

theorem range'_drop_flat {K : Addr → List Addr} {base i n : Nat} (h : i < n) :
    (List.range' i (n - i)).flatMap (fun j => K (base + j)) = K (base + i) ++ (List.range' (i + 1) (n - (i + 1))).flatMap (fun j => K (base + j)) := by
  obtain ⟨e, he⟩ : ∃ e, n - i = e + 1 := ⟨n - i - 1, by aomega⟩
  have : n - (i + 1) = e := by aomega
  rw [this, he, List.range'_succ, List.flatMap_cons]

theorem range'_prefix : ∀ {xs ys : List Nat} {s n : Nat}, xs ++ ys = List.range' s n → xs = List.range' s xs.length ∧ ys = List.range' (s + xs.length) (n - xs.length) ∧ xs.length ≤ n
  | [], ys, s, n, h => by simpa using h
  | x :: xs, ys, s, 0, h => by simp at h
  | x :: xs, ys, s, n+1, h => by
    simp only [List.cons_append, List.range'_succ, List.cons.injEq] at h
    obtain ⟨h1, h2, h3⟩ := range'_prefix h.2
    refine ⟨?_, ?_, ?_⟩
    · rw [List.length_cons, List.range'_succ, ← h1, h.1]
    · rw [List.length_cons, h2]; congr 1 <;> aomega
    · simpa using h3

theorem den_sized {H : Heap α} {K : Addr → List Addr} {a : Addr} {t} (h : Den H.sized K a t) : H.sized a = some t.data ∧ DenL H.sized K (K a) t.kids := by
  cases t with
  | node d ts => exact h

/-- Breadth-first order is the order of the slots. -/
theorem Shape.order {H : Heap α} {K : Addr → List Addr} {base child : Nat} (S : Shape H K base child) :
    ∀ (n i l : Nat) (ts : List (RTree (α × Size))), child - i ≤ n → i + l ≤ child →
      (List.range' i (child - i)).flatMap (fun j => K (base + j)) = List.range' (base + (i + l)) (child - (i + l)) →
      DenL H.sized K (List.range' (base + i) l) ts → (qbfs ts).map (fun t => (some t.data, t.kids.length)) = (List.range' (base + i) (child - i)).map (fun a => (H.sized a, (K a).length)) := by
  intro n
  induction n with
  | zero =>
    intro i l ts hn hl _ hd
    have h1 : l = 0 := by aomega
    have h2 : child - i = 0 := by aomega
    subst h1
    simp only [List.range'_zero] at hd
    cases ts with
    | nil => simp [h2]
    | cons _ _ => simp at hd
  | succ n ih =>
    intro i l ts hn hl hf hd
    by_cases hi : i < child
    · rw [range'_drop_flat hi] at hf
      cases l with
      | zero =>
        exfalso
        obtain ⟨e, he⟩ : ∃ e, child - (i + 0) = e + 1 := ⟨child - (i + 0) - 1, by aomega⟩
        rw [he, List.range'_succ] at hf
        have hm : (base + (i + 0)) ∈ K (base + i) ++ (List.range' (i + 1) (child - (i + 1))).flatMap (fun j => K (base + j)) := by
          rw [hf]; simp
        rcases List.mem_append.mp hm with h | h
        · have := (S.up i _ hi h).1; aomega
        · obtain ⟨j, hj, h⟩ := List.mem_flatMap.mp h
          rw [List.mem_range'_1] at hj
          have := (S.up j _ (by aomega) h).1; aomega
      | succ l =>
        rw [List.range'_succ] at hd
        cases ts with
        | nil => simp at hd
        | cons t ts =>
          obtain ⟨h1, h2⟩ := hd
          obtain ⟨h3, h4⟩ := den_sized h1
          obtain ⟨g1, g2, g3⟩ := range'_prefix hf
          obtain ⟨e, he⟩ : ∃ e, child - i = e + 1 := ⟨child - i - 1, by aomega⟩
          have he' : child - (i + 1) = e := by aomega
          rw [qbfs_cons, List.map_cons, he, List.range'_succ, List.map_cons, h3, h4.length]
          congr 1
          rw [← he']
          refine ih (i + 1) (l + (K (base + i)).length) (ts ++ t.kids) (by aomega) (by aomega) ?_ ?_
          · rw [g2]; congr 1 <;> aomega
          · have e1 : List.range' (base + (i + 1)) (l + (K (base + i)).length) = List.range' (base + i + 1) l ++ K (base + i) := by
              rw [g1, List.length_range', ← List.range'_append_1]
              congr 1
              · congr 1; aomega
            rw [e1]
            exact h2.append h4
    · have h1 : l = 0 := by aomega
      have h2 : child - i = 0 := by aomega
      subst h1
      simp only [List.range'_zero] at hd
      cases ts with
      | nil => simp [h2]
      | cons _ _ => simp at hd

/-! ### The block in memory -/

theorem shape_join {hs F : Heap α} {K : Addr → List Addr} {v base n par child r : Nat} {vs : List (α × Size)} (B : BInv F v base n K) (U : SlotsTo F base child)
    (S : Sl F K v base par child r vs) (hc : child ≤ n) (x : Addr → Option Addr) :
    Shape (join (blkP base n) (blkQ v) hs { F with up := x }) K base child := by
  have hp : ∀ i : Nat, i < child → blkP base n (base + i) = true := fun i hi => blkP_add (by aomega)
  have hu : ∀ i : Nat, i < child → F.Used (base + i) := fun i hi => (U _).mpr ⟨Nat.le_add_right _ _, Nat.add_lt_add_left hi _⟩
  have hdg : ∀ i : Nat, i ≤ child → degs (join (blkP base n) (blkQ v) hs { F with up := x }) base 0 i = degs F base 0 i := by
    intro i hi
    apply degs_congr
    intro j _ hj
    simp [join, hp j (by aomega)]
  refine ⟨?_, ?_, ?_, ?_, S.flat, S.up, ?_⟩
  · intro i hi; simp [join, hp i hi, (hu i hi).1]
  · intro i hi; simp [join, hp i hi, B.l.head _ (hu i hi)]
  · intro i hi
    refine (B.l.links _ (hu i hi)).congr ?_
    intro c hc'
    have h1 := S.up i c hi hc'
    have h2 : blkP base n c = true := blkP_iff.mpr ⟨by aomega, by aomega⟩
    simp [join, h2]
  · intro i hi
    rw [hdg i (by aomega), S.kids hi]
    simp [join, hp i hi]
  · intro i h0 hi
    obtain ⟨j, rfl⟩ : ∃ j, i = j + 1 := ⟨i - 1, by aomega⟩
    have hj : j < vs.length := by have := S.len; aomega
    have := (S.slot j _ (List.getElem?_eq_getElem hj)).2
    simp [Heap.val, join, hp _ hi, this, Data.val?]

/-- What the slots from `1` on hold. -/
theorem sized_join {hs F : Heap α} {K : Addr → List Addr} {v base n par child r : Nat} {vs : List (α × Size)}
    (S : Sl F K v base par child r vs) (hc : child ≤ n) (x : Addr → Option Addr) {i : Nat} (hi : i < vs.length) :
    (join (blkP base n) (blkQ v) hs { F with up := x }).sized (base + (i + 1)) = some vs[i] ∧
      (join (blkP base n) (blkQ v) hs { F with up := x }).size (base + (i + 1)) = vs[i].2 := by
  have := S.slot i _ (List.getElem?_eq_getElem hi)
  have hp : blkP base n (base + (i + 1)) = true := blkP_add (by have := S.len; aomega)
  simp [Heap.sized, Heap.val, join, hp, this.1, this.2, Data.val?]

theorem degs_take {H : Heap α} {base d0 : Nat} {vs : List (α × Size)} (h0 : (H.size base).degree = d0) (hs : ∀ i : Nat, (h : i < vs.length) → H.size (base + (i + 1)) = vs[i].2) :
    ∀ i : Nat, i ≤ vs.length → degs H base 0 (i + 1) = d0 + ((vs.take i).map fun v => v.2.degree).sum
  | 0, _ => by simp [degs, h0]
  | i+1, hi => by
    rw [degs_snoc, degs_take h0 hs i (by aomega), Nat.zero_add, hs i (by aomega), List.take_add_one, List.getElem?_eq_getElem (by aomega), List.map_append, List.sum_append]
    simp only [Option.toList_some, List.map_cons, List.map_nil, List.sum_cons, List.sum_nil]; aomega

theorem read_tree {H : Heap α} {K : Addr → List Addr} {base : Nat} {v : α × Size} {vs : List (α × Size)} (S : Shape H K base (vs.length + 1)) (h0 : H.sized base = some v)
    (hs : ∀ i : Nat, (h : i < vs.length) → H.sized (base + (i + 1)) = some vs[i] ∧ H.size (base + (i + 1)) = vs[i].2) :
    ∃ t, readSized (vs.length + 1) base H = .ok t H ∧ (levelOrder [t]).map data = v :: vs ∧
      ∀ i s, (levelOrder [t])[i]? = some s → s.kids.length = min s.data.2.degree (vs.length - (((v :: vs).take i).map fun v => v.2.degree).sum) := by
  obtain ⟨d, hd, e0⟩ := Option.map_eq_some_iff.mp h0
  have hv : (H.val base).isSome = true := by rw [hd]; rfl
  have hz : H.size base = v.2 := by rw [← e0]
  obtain ⟨t, ht⟩ := S.den (vs.length + 1) 0 (.inr hv) (Nat.succ_pos _) (by aomega)
  have hrd := S.read (vs.length + 1) 0 (Nat.succ_pos _) ht (by aomega)
  have hord := S.order (vs.length + 1) 0 1 [t] (by aomega) (by aomega) (by
    have := S.flat
    rw [List.range_eq_range'] at this
    simpa using this) (by
    simp only [Nat.add_zero] at ht
    simpa [List.range'_succ] using ht)
  simp only [Nat.add_zero, Nat.sub_zero] at hord hrd ht
  refine ⟨t, hrd, ?_, ?_⟩
  · have h1 := congrArg (List.map Prod.fst) hord
    rw [List.map_map, List.map_map] at h1
    have h2 : (List.range' base (vs.length + 1)).map H.sized = (v :: vs).map some := by
      apply List.ext_getElem (by simp)
      intro i g1 g2
      rw [List.getElem_map, List.getElem_map, List.getElem_range']
      cases i with
      | zero => simpa using h0
      | succ i =>
        have := (hs i (by simpa using g2)).1
        simpa using this
    rw [levelOrder_eq]
    have h3 : (qbfs [t]).map (some ∘ data) = (v :: vs).map some := h1.trans h2
    rw [← List.map_map] at h3
    exact (List.map_inj_right (fun _ _ h => Option.some.inj h)).mp h3
  · intro i s his
    rw [levelOrder_eq] at his
    have h1 : ((qbfs [t]).map (fun t => (some t.data, t.kids.length)))[i]? = some (some s.data, s.kids.length) := by simp [his]
    rw [hord] at h1
    obtain ⟨hi, h2⟩ := List.getElem?_eq_some_iff.mp h1
    rw [List.getElem_map, List.getElem_range', Nat.one_mul] at h2
    simp only [List.length_map, List.length_range'] at hi
    obtain ⟨h3, h4⟩ := Prod.mk.inj h2
    obtain ⟨_, _, h5⟩ := Option.map_eq_some_iff.mp h3
    have h6 : H.size (base + i) = s.data.2 := congrArg Prod.snd h5
    rw [← h4, ← h6, S.len i hi, Nat.add_sub_cancel]
    congr 2
    cases i with
    | zero => rfl
    | succ i =>
      rw [degs_take (d0 := v.2.degree) (by rw [hz]) (fun j hj => (hs j hj).2) i (by aomega)]
      simp

theorem read_forest {H : Heap α} {K : Addr → List Addr} {base : Nat} {sz : Size} {vs : List (α × Size)} (S : Shape H K base (vs.length + 1)) (h0 : H.size base = sz)
    (hs : ∀ i : Nat, (h : i < vs.length) → H.sized (base + (i + 1)) = some vs[i] ∧ H.size (base + (i + 1)) = vs[i].2) :
    ∃ ts, readSizedForest (vs.length + 1) base H = .ok ts H ∧ (levelOrder ts).map data = vs ∧ ts.length = min sz.degree vs.length ∧
      ∀ i s, (levelOrder ts)[i]? = some s → s.kids.length = min s.data.2.degree (vs.length - (sz.degree + ((vs.take i).map fun v => v.2.degree).sum)) := by
  have hlt : 0 < vs.length + 1 := Nat.succ_pos _
  have hflat := S.flat
  rw [List.range_eq_range'] at hflat
  have hsp := range'_drop_flat (K := K) (base := base) hlt
  simp only [Nat.sub_zero, Nat.add_zero, Nat.zero_add, Nat.add_sub_cancel] at hsp hflat
  rw [hsp] at hflat
  obtain ⟨g1, g2, g3⟩ := range'_prefix hflat
  have hlen := S.len 0 hlt
  simp only [Nat.add_zero, degs, Nat.sub_zero, Nat.add_sub_cancel, h0] at hlen
  have hch := S.children (i := 0) hlt
  simp only [Nat.add_zero] at hch
  have hts : ∀ cs : List Addr, (∀ c ∈ cs, c ∈ K base) → ∃ ts, DenL H.sized K cs ts := by
    intro cs
    induction cs with
    | nil => intro _; exact ⟨[], trivial⟩
    | cons c cs ih =>
      intro h
      obtain ⟨ts, hts⟩ := ih (fun x hx => h x (by simp [hx]))
      obtain ⟨j, j1, j2, rfl⟩ := S.kid hlt (h c (by simp))
      obtain ⟨t, ht⟩ := S.den (vs.length + 1) j (.inl j1) j2 (by aomega)
      exact ⟨t :: ts, ht, hts⟩
  obtain ⟨ts, hts⟩ := hts (K base) (fun _ h => h)
  have hrd : readSizedForest (vs.length + 1) base H = .ok ts H := by
    simp only [readSizedForest, M.bind_apply, hch, Res.bind_ok]
    refine readMany_ok (R := Den H.sized K) ?_ (DenL_forall₂.mp hts)
    intro c hc u hu
    obtain ⟨j, j1, j2, rfl⟩ := S.kid hlt hc
    exact S.read _ j j2 hu (by aomega)
  have hord := S.order vs.length 1 (K base).length ts (by aomega) (by aomega) (by
    rw [Nat.add_sub_cancel, g2]; congr 1 <;> aomega) (by rw [← g1]; exact hts)
  rw [Nat.add_sub_cancel] at hord
  refine ⟨ts, hrd, ?_, by rw [← hts.length, hlen], ?_⟩
  · have h1 := congrArg (List.map Prod.fst) hord
    rw [List.map_map, List.map_map] at h1
    have h2 : (List.range' (base + 1) vs.length).map H.sized = vs.map some := by
      apply List.ext_getElem (by simp)
      intro i g1 g2
      rw [List.getElem_map, List.getElem_map, List.getElem_range']
      have := (hs i (by simpa using g2)).1
      rw [← this, Nat.one_mul, Nat.add_assoc, Nat.add_comm 1 i]
    rw [levelOrder_eq]
    have h3 : (qbfs ts).map (some ∘ data) = vs.map some := h1.trans h2
    rw [← List.map_map] at h3
    exact (List.map_inj_right (fun _ _ h => Option.some.inj h)).mp h3
  · intro i s his
    rw [levelOrder_eq] at his
    have h1 : ((qbfs ts).map (fun t => (some t.data, t.kids.length)))[i]? = some (some s.data, s.kids.length) := by simp [his]
    rw [hord] at h1
    obtain ⟨hi, h2⟩ := List.getElem?_eq_some_iff.mp h1
    rw [List.getElem_map, List.getElem_range', Nat.one_mul] at h2
    simp only [List.length_map, List.length_range'] at hi
    obtain ⟨h3, h4⟩ := Prod.mk.inj h2
    obtain ⟨_, _, h5⟩ := Option.map_eq_some_iff.mp h3
    have h6 : H.size (base + 1 + i) = s.data.2 := congrArg Prod.snd h5
    have e : base + 1 + i = base + (i + 1) := by aomega
    rw [e] at h4 h6
    rw [← h4, ← h6, S.len (i + 1) (by aomega), Nat.add_sub_cancel, degs_take (d0 := sz.degree) (by rw [h0]) (fun j hj => (hs j hj).2) i (by aomega)]

end Trees
