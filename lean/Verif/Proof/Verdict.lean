import Verif.Proof.Fill
import Verif.Model.Crash
import Verif.Spec.Visits
/-
Construction from an arbitrary sequence of visits (C47).
-/
namespace Trees
set_option linter.unusedSimpArgs false
set_option linter.unusedVariables false
variable {α β : Type}

/-- How a call ends. -/
inductive Verdict where
  | ok | panic | ub
deriving DecidableEq

def Res.is {σ : Type} : Res σ β → Verdict → Prop
  | .ok _ _, v => v = .ok
  | .err .panic _, v => v = .panic
  | .err .ub _, v => v = .ub
  | .err .fuel _, _ => False
  | .err .alloc _, _ => False

/-- With `room` free slots and `left` announced nodes. -/
def verdict : Nat → Nat → List (α × Size) → Verdict
  | _, _, [] => .ok
  | 0, _, _ :: _ => .ub
  | _+1, 0, _ :: _ => .panic
  | room+1, left+1, v :: vs => verdict room (left + v.2.degree) vs

/-- Sum of the degrees in the slots from `i` on, `n` of them. -/
def degs (F : Heap α) (base : Nat) : Nat → Nat → Nat
  | _, 0 => 0
  | i, n+1 => (F.size (base + i)).degree + degs F base (i + 1) n

theorem degs_snoc (F : Heap α) (base : Nat) : ∀ n i, degs F base i (n + 1) = degs F base i n + (F.size (base + (i + n))).degree
  | 0, i => by simp [degs]
  | n+1, i => by
    have := degs_snoc F base n (i + 1)
    rw [degs, this, degs]
    have e : i + 1 + n = i + (n + 1) := by aomega
    rw [e]; aomega

theorem degs_congr {F F' : Heap α} {base : Nat} : ∀ n i, (∀ j, i ≤ j → j < i + n → F.size (base + j) = F'.size (base + j)) → degs F base i n = degs F' base i n
  | 0, _, _ => rfl
  | n+1, i, h => by
    rw [degs, degs, h i (Nat.le_refl _) (by aomega), degs_congr n (i + 1) (fun j h1 h2 => h j (by aomega) (by aomega))]

/-- The inner loop, in a block whose slots up to `child` are filled. -/
theorem fillInner_any {F hs : Heap α} {v base n : Nat} {K : Addr → List Addr} (B : BInv F v base n K) {child : Nat} (hc : child < n) :
    ∀ (d k par : Nat), par + d + 1 = child + 1 → 0 < d → d ≤ k → 
      ∃ par' r, fillInner v k par child (join (blkP base n) (blkQ v) hs F) = .ok (par', r) (join (blkP base n) (blkQ v) hs F) ∧
        par' ≤ child ∧ par < par' ∧ r + degs F base (par' + 1) (child - par') = degs F base (par + 1) d ∧ (r = 0 → par' = child) ∧ r = (F.size (base + par')).degree ∧
        ∀ j : Nat, par < j → j < par' → (F.size (base + j)).degree = 0
  | 0, k, par, h1, h2, h3 => absurd h2 (Nat.lt_irrefl _)
  | d+1, 0, par, h1, h2, h3 => absurd h3 (Nat.not_succ_le_zero _)
  | d+1, k+1, par, h1, h2, h3 => by
    have hlt : par + 1 < n := by aomega
    have e1 := vecNode_join (P := blkP base n) (h := hs) (blkQ_self (v := v)) B.vec (i := par + 1) hlt
    have hl : F.live (base + (par + 1)) = true := (B.live _).mpr ⟨Nat.le_add_right _ _, Nat.add_lt_add_left hlt _⟩
    have e2 := degree_join (Q := blkQ v) (h := hs) (blkP_add (base := base) hlt) hl
    simp only [fillInner, M.bind_apply, e1, Res.bind_ok, e2]
    by_cases hp : par + 1 = child
    · rw [if_pos hp]
      have hd : d = 0 := by aomega
      subst hd
      refine ⟨_, _, rfl, Nat.le_of_eq hp, Nat.lt_succ_self _, ?_, fun _ => hp, rfl, fun j j1 j2 => absurd j2 (by aomega)⟩
      have : child - (par + 1) = 0 := by aomega
      simp [this, degs]
    · rw [if_neg hp]
      by_cases hr : (F.size (base + (par + 1))).degree = 0
      · rw [if_pos hr]
        obtain ⟨par', r, g1, g2, g3, g4, g5, g6, g7⟩ := fillInner_any B hc d k (par + 1) (by aomega) (by aomega) (by aomega)
        refine ⟨par', r, g1, g2, by aomega, ?_, g5, g6, ?_⟩
        · rw [g4, degs, hr]; aomega
        · intro j j1 j2
          by_cases hj : j = par + 1
          · rw [hj]; exact hr
          · exact g7 j (by aomega) j2
      · rw [if_neg hr]
        refine ⟨_, _, rfl, by aomega, Nat.lt_succ_self _, ?_, fun h => absurd h hr, rfl, fun j j1 j2 => absurd j2 (by aomega)⟩
        have : child - (par + 1) = d := by aomega
        rw [this, degs]

/-- Slots `0 .. child - 1` are filled. -/
def SlotsTo (F : Heap α) (base child : Nat) : Prop := ∀ a, F.Used a ↔ base ≤ a ∧ a < base + child

/-- The contents of the filled slots: `ws` are the visits in the slots from `1` on. -/
structure Sl (F : Heap α) (K : Addr → List Addr) (v base par child remains : Nat) (ws : List (α × Size)) : Prop where
  len : ws.length + 1 = child
  lt : par < child
  slot : ∀ (i : Nat) x, ws[i]? = some x → F.size (base + (i + 1)) = x.2 ∧ F.data (base + (i + 1)) = .piled x.1 v
  full : ∀ i : Nat, i < par → (K (base + i)).length = (F.size (base + i)).degree
  cur : (K (base + par)).length + remains = (F.size (base + par)).degree
  rest : ∀ j : Nat, par < j → K (base + j) = []
  flat : (List.range child).flatMap (fun i => K (base + i)) = List.range' (base + 1) (child - 1)
  up : ∀ (i : Nat) c, i < child → c ∈ K (base + i) → base + i < c ∧ c < base + child

theorem Sl.append {F F' : Heap α} {K : Addr → List Addr} {v base par child remains : Nat} {ws : List (α × Size)} (S : Sl F K v base par child (remains + 1) ws)
    (hpc : par < child) {d : α} {sz : Size} (hS : F'.size = upd F.size (base + child) sz) (hD : F'.data = upd F.data (base + child) (.piled d v)) :
    Sl F' (upd K (base + par) (K (base + par) ++ [base + child])) v base par (child + 1) remains (ws ++ [(d, sz)]) := by
  have hne : ∀ i : Nat, i < child → base + i ≠ base + child := fun i hi => Nat.ne_of_lt (Nat.add_lt_add_left hi _)
  have hpj : ∀ j : Nat, j ≠ par → base + j ≠ base + par := fun j hj => by aomega
  have hl := S.len
  refine ⟨by simp [hl], by aomega, ?_, ?_, ?_, ?_, ?_, ?_⟩
  · intro i x hx
    rw [hS, hD]
    by_cases hi : i < ws.length
    · rw [List.getElem?_append_left hi] at hx
      rw [upd_of_ne _ _ (hne (i + 1) (by aomega)), upd_of_ne _ _ (hne (i + 1) (by aomega))]
      exact S.slot i x hx
    · have hi' : i = ws.length := by
        have := (List.getElem?_eq_some_iff.mp hx).1
        simp at this; aomega
      subst hi'
      simp at hx; subst hx
      rw [hl]; simp
  · intro i hi
    rw [hS, upd_of_ne _ _ (hne i (by aomega)), upd_of_ne _ _ (hpj i (by aomega))]
    exact S.full i hi
  · rw [hS, upd_self, upd_of_ne _ _ (hne par hpc)]
    have := S.cur
    simp; aomega
  · intro j hj
    rw [upd_of_ne _ _ (hpj j (by aomega))]
    exact S.rest j hj
  · have hsplit : List.range (child + 1) = List.range par ++ par :: List.range' (par + 1) (child - par) := by
      rw [List.range_eq_range', List.range_eq_range']
      have : child + 1 = par + (child - par + 1) := by aomega
      rw [this, ← List.range'_append_1]
      simp [List.range'_succ]
    have hsplit' : List.range child = List.range par ++ par :: List.range' (par + 1) (child - par - 1) := by
      rw [List.range_eq_range', List.range_eq_range']
      have : child = par + (child - par - 1 + 1) := by aomega
      rw [this, ← List.range'_append_1]
      simp [List.range'_succ]
    have hnil : ∀ (n : Nat), (List.range' (par + 1) n).flatMap (fun i => K (base + i)) = [] := by
      intro n
      rw [List.flatMap_eq_nil_iff]
      intro j hj
      rw [List.mem_range'_1] at hj
      exact S.rest j (by aomega)
    have hnil' : ∀ (n : Nat), (List.range' (par + 1) n).flatMap (fun i => upd K (base + par) (K (base + par) ++ [base + child]) (base + i)) = [] := by
      intro n
      rw [List.flatMap_eq_nil_iff]
      intro j hj
      rw [List.mem_range'_1] at hj
      rw [upd_of_ne _ _ (hpj j (by aomega))]
      exact S.rest j (by aomega)
    have hpre : (List.range par).flatMap (fun i => upd K (base + par) (K (base + par) ++ [base + child]) (base + i)) = (List.range par).flatMap (fun i => K (base + i)) := by
      rw [List.flatMap_congr]
      intro i hi
      rw [List.mem_range] at hi
      rw [upd_of_ne _ _ (hpj i (by aomega))]
    have hf := S.flat
    rw [hsplit', List.flatMap_append, List.flatMap_cons, hnil, List.append_nil] at hf
    rw [hsplit, List.flatMap_append, List.flatMap_cons, hnil', List.append_nil, hpre, upd_self, ← List.append_assoc, hf]
    obtain ⟨e, he⟩ : ∃ e, child = e + 1 := ⟨child - 1, by aomega⟩
    rw [he, Nat.add_sub_cancel, Nat.add_sub_cancel, List.range'_concat]
    congr 2; aomega
  · intro i c hi hc
    by_cases hip : i = par
    · subst hip
      rw [upd_self] at hc
      rcases List.mem_append.mp hc with hc | hc
      · have := S.up i c hpc hc
        exact ⟨this.1, by aomega⟩
      · simp at hc; subst hc; exact ⟨by aomega, by aomega⟩
    · rw [upd_of_ne _ _ (hpj i hip)] at hc
      by_cases hic : i = child
      · subst hic; rw [S.rest i hpc] at hc; simp at hc
      · have := S.up i c (by aomega) hc
        exact ⟨this.1, by aomega⟩

theorem Sl.move {F : Heap α} {K : Addr → List Addr} {v base par par' child r : Nat} {ws : List (α × Size)} (S : Sl F K v base par child 0 ws)
    (hp : par < par') (hl : par' < child) (hr : r = (F.size (base + par')).degree) (hz : ∀ j : Nat, par < j → j < par' → (F.size (base + j)).degree = 0) :
    Sl F K v base par' child r ws := by
  refine ⟨S.len, hl, S.slot, ?_, by rw [S.rest par' hp, hr]; simp, fun j hj => S.rest j (by aomega), S.flat, S.up⟩
  intro i hi
  by_cases h1 : i < par
  · exact S.full i h1
  · by_cases h2 : i = par
    · subst h2; have := S.cur; simpa using this
    · rw [S.rest i (by aomega), hz i (by aomega) hi]; rfl

theorem degs_sum {F : Heap α} {K : Addr → List Addr} {base : Nat} : ∀ (n i : Nat), (∀ j : Nat, i ≤ j → j < i + n → (K (base + j)).length = (F.size (base + j)).degree) →
    ((List.range' i n).flatMap fun j => K (base + j)).length = degs F base i n
  | 0, _, _ => rfl
  | n+1, i, h => by
    rw [List.range'_succ, List.flatMap_cons, List.length_append, h i (Nat.le_refl _) (by aomega), degs_sum n (i + 1) (fun j h1 h2 => h j (by aomega) (by aomega)), degs]

theorem degs_mono {F : Heap α} {base : Nat} : ∀ (d n i : Nat), degs F base i n ≤ degs F base i (n + d)
  | 0, n, i => Nat.le_refl _
  | d+1, n, i => by
    have := degs_mono (F := F) (base := base) d n i
    rw [← Nat.add_assoc, degs_snoc]; aomega

/-- How many children each node gets. -/
theorem Sl.kids {F : Heap α} {K : Addr → List Addr} {v base par child remains : Nat} {ws : List (α × Size)} (S : Sl F K v base par child remains ws)
    {i : Nat} (hi : i < child) : (K (base + i)).length = min (F.size (base + i)).degree (child - 1 - degs F base 0 i) := by
  have hl := S.lt
  have htot : degs F base 0 par + (K (base + par)).length = child - 1 := by
    have hsplit : List.range child = List.range' 0 par ++ par :: List.range' (par + 1) (child - par - 1) := by
      rw [List.range_eq_range']
      have : child = par + (child - par - 1 + 1) := by aomega
      rw [this, ← List.range'_append_1]
      simp [List.range'_succ]
    have hnil : (List.range' (par + 1) (child - par - 1)).flatMap (fun i => K (base + i)) = [] := by
      rw [List.flatMap_eq_nil_iff]
      intro j hj
      rw [List.mem_range'_1] at hj
      exact S.rest j (by aomega)
    have := congrArg List.length S.flat
    rw [hsplit, List.flatMap_append, List.flatMap_cons, hnil, List.append_nil, List.length_append, List.length_range',
      degs_sum par 0 (fun j _ h => S.full j (by aomega))] at this
    exact this
  have hcur := S.cur
  rcases Nat.lt_trichotomy i par with h | h | h
  · have h1 := S.full i h
    have h2 := degs_snoc F base i 0
    rw [Nat.zero_add] at h2
    have h3 := degs_mono (F := F) (base := base) (par - (i + 1)) (i + 1) 0
    rw [show i + 1 + (par - (i + 1)) = par by aomega] at h3
    rw [h1, Nat.min_eq_left]; aomega
  · subst h
    rw [Nat.min_eq_right] <;> aomega
  · have h2 := degs_snoc F base par 0
    rw [Nat.zero_add] at h2
    have h3 := degs_mono (F := F) (base := base) (i - (par + 1)) (par + 1) 0
    rw [show par + 1 + (i - (par + 1)) = i by aomega] at h3
    rw [S.rest i h, Nat.min_eq_right] <;> simp <;> aomega

theorem fillLoop_any {hs : Heap α} {v base n : Nat} : ∀ (vs : List (α × Size)) (k par child remains : Nat) (F : Heap α) (K : Addr → List Addr) (ws : List (α × Size)),
    BInv F v base n K → Sl F K v base par child remains ws → SlotsTo F base child → par < child → child ≤ n → n - child < k → (remains = 0 → par + 1 = child) →
    (∃ F' K', fillLoop listNext v k (vs, none) par child remains (join (blkP base n) (blkQ v) hs F) = .ok ([], none) (join (blkP base n) (blkQ v) hs F') ∧
      BInv F' v base n K' ∧ SlotsTo F' base (ws.length + vs.length + 1) ∧ (∃ par' r', Sl F' K' v base par' (ws.length + vs.length + 1) r' (ws ++ vs)) ∧
      F'.size base = F.size base ∧ F'.data base = F.data base ∧ F'.up base = F.up base ∧ verdict (n - child) (remains + degs F base (par + 1) (child - par - 1)) vs = .ok) ∨
    (∃ h', fillLoop listNext v k (vs, none) par child remains (join (blkP base n) (blkQ v) hs F) = .err .panic h' ∧
      verdict (n - child) (remains + degs F base (par + 1) (child - par - 1)) vs = .panic) ∨
    (∃ h', fillLoop listNext v k (vs, none) par child remains (join (blkP base n) (blkQ v) hs F) = .err .ub h' ∧
      verdict (n - child) (remains + degs F base (par + 1) (child - par - 1)) vs = .ub) := by
  intro vs
  induction vs with
  | nil =>
    intro k par child remains F K ws B S U h1 h2 h3 h4
    obtain ⟨k, rfl⟩ : ∃ k', k = k' + 1 := ⟨k - 1, by aomega⟩
    exact .inl ⟨F, K, by simp [fillLoop, listNext], B, by rw [show ws.length + ([] : List (α × Size)).length + 1 = child from S.len]; exact U,
      ⟨par, remains, by rw [show ws.length + ([] : List (α × Size)).length + 1 = child from S.len, List.append_nil]; exact S⟩, rfl, rfl, rfl, by cases n - child <;> rfl⟩
  | cons w vs ih =>
    intro k par child remains F K ws B S U h1 h2 h3 h4
    obtain ⟨k, rfl⟩ : ∃ k', k = k' + 1 := ⟨k - 1, by aomega⟩
    obtain ⟨d, sz⟩ := w
    by_cases hroom : child = n
    · -- out of bounds
      subst hroom
      refine .inr (.inr ?_)
      have e1 := vecNode_join (P := blkP base child) (h := hs) (blkQ_self (v := v)) B.vec (i := par) (show par < child from h1)
      have e2 : ∀ H : Heap α, H.vec v = some ⟨base, child, child⟩ → vecNode v child H = .err .ub H := by
        intro H hH; simp [vecNode, hH]
      have e3 : (join (blkP base child) (blkQ v) hs F).vec v = some ⟨base, child, child⟩ := by simp [join, blkQ, B.vec]
      refine ⟨join (blkP base child) (blkQ v) hs F, ?_, by rw [Nat.sub_self]; rfl⟩
      simp [fillLoop, listNext, M.bind_apply, appendChild, e1, makePiledNode, vecMakeNode, e2 _ e3, Res.bind]
    · have hcn : child < n := by aomega
      have hpu : F.Used (base + par) := (U _).mpr ⟨Nat.le_add_right _ _, Nat.add_lt_add_left h1 _⟩
      have hcu : ¬ F.Used (base + child) := fun h => by have := ((U _).mp h).2; aomega
      obtain ⟨F', e1, B', U', P', S', D'⟩ := appendChild_ok (h := hs) B (p := par) (c := child) (by aomega) hcn hpu hcu d sz
      have hU' : SlotsTo F' base (child + 1) := by
        intro a
        rw [U', U]
        constructor
        · rintro (⟨g1, g2⟩ | g)
          · exact ⟨g1, by aomega⟩
          · subst g; exact ⟨Nat.le_add_right _ _, by aomega⟩
        · rintro ⟨g1, g2⟩
          by_cases ha : a = base + child
          · exact .inr ha
          · exact .inl ⟨g1, by aomega⟩
      obtain ⟨room, hr⟩ : ∃ room, n - child = room + 1 := ⟨n - child - 1, by aomega⟩
      have hr' : n - (child + 1) = room := by aomega
      have hdg : degs F' base (par + 1) (child - par) = degs F base (par + 1) (child - par - 1) + sz.degree := by
        obtain ⟨e, he⟩ : ∃ e, child - par = e + 1 := ⟨child - par - 1, by aomega⟩
        have he' : child - par - 1 = e := by aomega
        rw [he', he, degs_snoc]
        have : par + 1 + e = child := by aomega
        rw [this, S', upd_self]
        congr 1
        apply degs_congr
        intro j j1 j2
        rw [S', upd_of_ne]
        have : base + j < base + child := by aomega
        exact Nat.ne_of_lt this
      by_cases hz : remains = 0
      · -- no parent announces this visit
        have hp := h4 hz
        refine .inr (.inl ⟨join (blkP base n) (blkQ v) hs F', ?_, ?_⟩)
        · simp [fillLoop, listNext, M.bind_apply, e1, hz, M.throw]
        · have : child - par - 1 = 0 := by aomega
          rw [hr, hz, this]; rfl
      · have hstep : fillLoop listNext v (k + 1) ((d, sz) :: vs, none) par child remains (join (blkP base n) (blkQ v) hs F) =
            (if remains - 1 = 0 then (do
                let (par', remains') ← fillInner v (child + 1) par child
                fillLoop listNext v k (vs, none) par' (child + 1) remains')
              else fillLoop listNext v k (vs, none) par (child + 1) (remains - 1)) (join (blkP base n) (blkQ v) hs F') := by
          simp only [fillLoop, listNext, M.bind_apply, M.pure_apply, Res.bind_ok, e1, if_neg hz]
        obtain ⟨r, hrem⟩ : ∃ r, remains = r + 1 := ⟨remains - 1, by aomega⟩
        have hv : verdict (n - child) (remains + degs F base (par + 1) (child - par - 1)) ((d, sz) :: vs) =
            verdict room (r + degs F' base (par + 1) (child - par)) vs := by
          rw [hr, hrem, hdg, show r + 1 + degs F base (par + 1) (child - par - 1) = (r + degs F base (par + 1) (child - par - 1)) + 1 by aomega]
          simp only [verdict]
          congr 1; aomega
        have hSl : Sl F' _ v base par (child + 1) r (ws ++ [(d, sz)]) := (show Sl F K v base par child (r + 1) ws from hrem ▸ S).append h1 S' D'
        have hb0 : base ≠ base + child := by aomega
        have hz0 : F'.size base = F.size base := by rw [S', upd_of_ne _ _ hb0]
        have hd0 : F'.data base = F.data base := by rw [D', upd_of_ne _ _ hb0]
        have hu0 : F'.up base = F.up base := by rw [P', upd_of_ne _ _ hb0]
        have hlen : (ws ++ [(d, sz)]).length + vs.length = ws.length + ((d, sz) :: vs).length := by simp; aomega
        rw [hv, hstep, hrem, Nat.add_sub_cancel]
        by_cases hz' : r = 0
        · rw [if_pos hz']
          obtain ⟨par', r', g1, g2, g3, g4, g5, g6, g7⟩ := fillInner_any (hs := hs) B' hcn (child - par) (child + 1) par (by aomega) (by aomega) (by aomega)
          simp only [M.bind_apply, g1, Res.bind_ok]
          have := ih k par' (child + 1) r' F' _ _ B' ((hz' ▸ hSl).move g3 (by aomega) g6 g7) hU' (by aomega) (by aomega) (by aomega) (fun h => by rw [g5 h])
          rw [hr', show child + 1 - par' - 1 = child - par' by aomega, g4, hlen, List.append_assoc, hz0, hd0, hu0] at this
          rw [hz', Nat.zero_add]
          exact this
        · rw [if_neg hz']
          have := ih k par (child + 1) r F' _ _ B' hSl hU' (by aomega) (by aomega) (by aomega) (fun h => absurd h hz')
          rw [hr', show child + 1 - par - 1 = child - par by aomega, hlen, List.append_assoc, hz0, hd0, hu0] at this
          exact this

theorem fillLoop_verdict {hs : Heap α} {v base n : Nat} (vs : List (α × Size)) {sz : Size} {F : Heap α}
    (B : BInv F v base (n + 1) (fun _ => [])) (U : ∀ a, F.Used a ↔ a = base) (hsz : F.size base = sz) :
    (∃ F' K', fillLoop listNext v (n + 1) (vs, none) 0 1 sz.degree (join (blkP base (n + 1)) (blkQ v) hs F) = .ok ([], none) (join (blkP base (n + 1)) (blkQ v) hs F') ∧
      BInv F' v base (n + 1) K' ∧ SlotsTo F' base (vs.length + 1) ∧ (∃ par' r', Sl F' K' v base par' (vs.length + 1) r' vs) ∧
      F'.size base = sz ∧ F'.data base = F.data base ∧ F'.up base = F.up base ∧ verdict n sz.degree vs = .ok) ∨
    (∃ h', fillLoop listNext v (n + 1) (vs, none) 0 1 sz.degree (join (blkP base (n + 1)) (blkQ v) hs F) = .err .panic h' ∧ verdict n sz.degree vs = .panic) ∨
    (∃ h', fillLoop listNext v (n + 1) (vs, none) 0 1 sz.degree (join (blkP base (n + 1)) (blkQ v) hs F) = .err .ub h' ∧ verdict n sz.degree vs = .ub) := by
  have hS : Sl F (fun _ => []) v base 0 1 sz.degree ([] : List (α × Size)) := by
    refine ⟨rfl, by aomega, fun i x h => by simp at h, fun i hi => absurd hi (by aomega), by simp [hsz], fun _ _ => rfl, by simp, fun i c _ h => by simp at h⟩
  have := fillLoop_any (hs := hs) vs (n + 1) 0 1 sz.degree F _ [] B hS (fun a => by rw [U]; constructor <;> intro h <;> aomega) (by aomega) (by aomega) (by aomega) (fun _ => rfl)
  simpa [degs, hsz] using this

theorem treeOfVisits_verdict (v : α × Size) (vs : List (α × Size)) (h : Heap α) :
    (treeOfVisits (v :: vs) none h).is (verdict v.2.descendants v.2.degree vs) := by
  obtain ⟨d, sz⟩ := v
  obtain ⟨F, e1, B, U, -, hsz, -⟩ := makeRoot_ok (h := bumped h (sz.descendants + 1)) (v := h.nextVec) (base := h.nextAddr) (n := sz.descendants + 1) (Nat.succ_pos _) (dat := .piled d h.nextVec) (sz := sz) (.inr ⟨d, rfl⟩)
  simp only [treeOfVisits, treeFromBfs, M.bind_apply, listNext, M.pure_apply, Res.bind_ok, unwrap, newVec_join, makePiledNode, e1]
  rcases fillLoop_verdict (hs := bumped h (sz.descendants + 1)) vs B U hsz with ⟨F', K', e2, B', -, -, -, -, -, e3⟩ | ⟨h', e2, e3⟩ | ⟨h', e2, e3⟩
  · have e4 := vecNode_join (P := blkP h.nextAddr (sz.descendants + 1)) (h := bumped h (sz.descendants + 1)) (blkQ_self (v := h.nextVec)) B'.vec (i := 0) (Nat.succ_pos _)
    have hl : F'.live h.nextAddr = true := (B'.live _).mpr ⟨Nat.le_refl _, by aomega⟩
    have hp : blkP h.nextAddr (sz.descendants + 1) h.nextAddr = true := blkP_iff.mpr ⟨Nat.le_refl _, by aomega⟩
    simp only [e2, Res.bind_ok, e4, Nat.add_zero, treeFromNode, M.bind_apply, setUp_join hp hl, M.pure_apply, dropVisits, e3, Res.is]
  · simp only [e2, Res.bind, e3, Res.is]
  · simp only [e2, Res.bind, e3, Res.is]

theorem forestOfVisits_verdict (sz : Size) (vs : List (α × Size)) (h : Heap α) :
    (forestOfVisits vs sz none h).is (verdict sz.descendants sz.degree vs) := by
  obtain ⟨F, e1, B, U, -, hsz, -⟩ := makeRoot_ok (h := bumped h (sz.descendants + 1)) (v := h.nextVec) (base := h.nextAddr) (n := sz.descendants + 1) (Nat.succ_pos _) (dat := (.piledNone h.nextVec : Data α)) (sz := sz) (.inl rfl)
  simp only [forestOfVisits, forestFromBfs, M.bind_apply, listNext, M.pure_apply, Res.bind_ok, unwrap, newVec_join, makePiledNode, e1]
  rcases fillLoop_verdict (hs := bumped h (sz.descendants + 1)) vs B U hsz with ⟨F', K', e2, B', -, -, -, -, -, e3⟩ | ⟨h', e2, e3⟩ | ⟨h', e2, e3⟩
  · have e4 := vecNode_join (P := blkP h.nextAddr (sz.descendants + 1)) (h := bumped h (sz.descendants + 1)) (blkQ_self (v := h.nextVec)) B'.vec (i := 0) (Nat.succ_pos _)
    simp only [e2, Res.bind_ok, e4, M.pure_apply, dropVisits, e3, Res.is]
  · simp only [e2, Res.bind, e3, Res.is]
  · simp only [e2, Res.bind, e3, Res.is]

/-! ### The verdict in closed form -/

theorem verdict_iff : ∀ (vs : List (α × Size)) (room left : Nat),
    (verdict room left vs = .ok ↔ vs.length ≤ room ∧ AnnouncedF left vs) ∧
    (verdict room left vs = .ub ↔ room < vs.length ∧ AnnouncedF left (vs.take room))
  | [], room, left => by
    simp [verdict, AnnouncedF]
  | v :: vs, 0, left => by simp [verdict, AnnouncedF]
  | v :: vs, room+1, 0 => by
    simp only [verdict]
    constructor
    · simp only [reduceCtorEq, false_iff, not_and]
      intro _ h
      have := h 0 (by simp)
      simp at this
    · simp only [reduceCtorEq, false_iff, not_and]
      intro _ h
      have := h 0 (by simp)
      simp at this
  | v :: vs, room+1, left+1 => by
    have ih := verdict_iff vs room (left + v.2.degree)
    have key : ∀ ws : List (α × Size), AnnouncedF (left + 1) (v :: ws) ↔ AnnouncedF (left + v.2.degree) ws := by
      intro ws
      constructor
      · intro h i hi
        have := h (i + 1) (by simpa using hi)
        simp only [List.take_succ_cons, List.map_cons, List.sum_cons] at this
        aomega
      · intro h i hi
        cases i with
        | zero => simp
        | succ i =>
          have := h i (by simpa using hi)
          simp only [List.take_succ_cons, List.map_cons, List.sum_cons]
          aomega
    simp only [verdict, ih.1, ih.2, List.length_cons, List.take_succ_cons, key]
    constructor
    · exact and_congr (by aomega) Iff.rfl
    · exact and_congr (by aomega) Iff.rfl

theorem announced_cons (v : α × Size) (vs : List (α × Size)) : Announced (v :: vs) ↔ AnnouncedF v.2.degree vs := by
  constructor
  · intro h i hi
    have := h (i + 1) (by aomega) (by simpa using hi)
    simp only [List.take_succ_cons, List.map_cons, List.sum_cons] at this
    aomega
  · intro h i h0 hi
    obtain ⟨j, rfl⟩ : ∃ j, i = j + 1 := ⟨i - 1, by aomega⟩
    have := h j (by simpa using hi)
    simp only [List.take_succ_cons, List.map_cons, List.sum_cons]
    aomega

theorem Res.is_unique {σ : Type} {r : Res σ β} {v w : Verdict} (h1 : r.is v) (h2 : r.is w) : v = w := by
  cases r with
  | ok b s => simp only [Res.is] at h1 h2; rw [h1, h2]
  | err e s => cases e <;> simp only [Res.is] at h1 h2 <;> first | exact h1.elim | rw [h1, h2]

end Trees
