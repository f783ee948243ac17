import Verif.Spec.Tree
import Verif.Proof.Ops
/-
From child lists to rose trees: what a node denotes.
-/
namespace Trees
variable {α β : Type}

mutual
/-- The subtree of `a` (child lists `K`, values `v`) is the rose tree. -/
def Den (v : Addr → Option β) (K : Addr → List Addr) : Addr → RTree β → Prop
  | a, .node d ts => v a = some d ∧ DenL v K (K a) ts
/-- The subtrees of a list of nodes. -/
def DenL (v : Addr → Option β) (K : Addr → List Addr) : List Addr → List (RTree β) → Prop
  | [], [] => True
  | c :: cs, t :: ts => Den v K c t ∧ DenL v K cs ts
  | _, _ => False
end

/-- `b` is in the subtree of `a`. -/
inductive Reach (K : Addr → List Addr) : Addr → Addr → Prop
  | refl (a) : Reach K a a
  | step {a c b} : c ∈ K a → Reach K c b → Reach K a b

theorem Reach.trans {K : Addr → List Addr} {a b c : Addr} (h : Reach K a b) (h' : Reach K b c) : Reach K a c := by
  induction h with
  | refl => exact h'
  | step hm _ ih => exact .step hm (ih h')

theorem Reach.tail {K : Addr → List Addr} {a b c : Addr} (h : Reach K a b) (h' : c ∈ K b) : Reach K a c :=
  h.trans (.step h' (.refl _))

/-- Either equal, or the last step is from the parent. -/
theorem Reach.cases_tail {K : Addr → List Addr} {a b : Addr} (h : Reach K a b) :
    a = b ∨ ∃ p, Reach K a p ∧ b ∈ K p := by
  induction h with
  | refl => exact .inl rfl
  | step hm hr ih =>
    right
    rcases ih with rfl | ⟨p, h1, h2⟩
    · exact ⟨_, .refl _, hm⟩
    · exact ⟨p, .step hm h1, h2⟩

@[simp] theorem DenL_nil {v : Addr → Option β} {K} {ts} : DenL v K [] ts ↔ ts = [] := by
  cases ts <;> simp [DenL]
@[simp] theorem DenL_nil_right {v : Addr → Option β} {K} {cs} : DenL v K cs [] ↔ cs = [] := by
  cases cs <;> simp [DenL]
@[simp] theorem DenL_cons {v : Addr → Option β} {K} {c cs t ts} :
    DenL v K (c :: cs) (t :: ts) ↔ Den v K c t ∧ DenL v K cs ts := by simp [DenL]
@[simp] theorem Den_node {v : Addr → Option β} {K} {a d ts} :
    Den v K a (.node d ts) ↔ v a = some d ∧ DenL v K (K a) ts := by simp [Den]
theorem DenL_cons_left {v : Addr → Option β} {K} {c cs ts} :
    DenL v K (c :: cs) ts ↔ ∃ t ts', ts = t :: ts' ∧ Den v K c t ∧ DenL v K cs ts' := by
  cases ts <;> simp [DenL]

theorem DenL_forall₂ {v : Addr → Option β} {K} {cs ts} :
    DenL v K cs ts ↔ List.Forall₂ (Den v K) cs ts := by
  induction cs generalizing ts with
  | nil => cases ts <;> simp
  | cons c cs ih => cases ts <;> simp [ih]

theorem DenL.length {v : Addr → Option β} {K} {cs ts} (h : DenL v K cs ts) : cs.length = ts.length :=
  (DenL_forall₂.mp h).length_eq

theorem DenL.append {v : Addr → Option β} {K} {cs ts cs' ts'} (h : DenL v K cs ts) (h' : DenL v K cs' ts') :
    DenL v K (cs ++ cs') (ts ++ ts') := by
  induction cs generalizing ts with
  | nil => cases ts <;> simp_all
  | cons c cs ih => cases ts <;> simp_all

theorem DenL.split {v : Addr → Option β} {K} {cs cs' ts} (h : DenL v K (cs ++ cs') ts) :
    ∃ t1 t2, ts = t1 ++ t2 ∧ DenL v K cs t1 ∧ DenL v K cs' t2 := by
  induction cs generalizing ts with
  | nil => exact ⟨[], ts, by simp_all⟩
  | cons c cs ih =>
    cases ts with
    | nil => simp at h
    | cons t ts =>
      simp at h
      obtain ⟨t1, t2, e, h1, h2⟩ := ih h.2
      exact ⟨t :: t1, t2, by simp [e], by simp [h.1, h1], h2⟩

theorem DenL.get {v : Addr → Option β} {K} {cs ts} (h : DenL v K cs ts) (i : Nat) :
    (cs[i]? = none ∧ ts[i]? = none) ∨ ∃ c t, cs[i]? = some c ∧ ts[i]? = some t ∧ Den v K c t := by
  induction cs generalizing ts i with
  | nil => cases ts <;> simp_all
  | cons c cs ih =>
    cases ts with
    | nil => simp at h
    | cons t ts =>
      simp at h
      cases i with
      | zero => right; exact ⟨c, t, by simp, by simp, h.1⟩
      | succ i => simpa using ih h.2 i

mutual
theorem Den.unique {v : Addr → Option β} {K} : ∀ {a t t'}, Den v K a t → Den v K a t' → t = t'
  | a, .node d ts, .node d' ts', h, h' => by
    simp only [Den_node] at h h'
    rw [h.1] at h'
    rw [Option.some.inj h'.1, DenL.unique h.2 h'.2]
theorem DenL.unique {v : Addr → Option β} {K} : ∀ {cs ts ts'}, DenL v K cs ts → DenL v K cs ts' → ts = ts'
  | [], ts, ts', h, h' => by simp at h h'; rw [h, h']
  | c :: cs, [], ts', h, h' => by simp at h
  | c :: cs, t :: ts, [], h, h' => by simp at h'
  | c :: cs, t :: ts, t' :: ts', h, h' => by
    simp only [DenL_cons] at h h'
    rw [Den.unique h.1 h'.1, DenL.unique h.2 h'.2]
end

mutual
/-- The denotation depends only on what is reachable. -/
theorem Den.congr {v v' : Addr → Option β} {K K' : Addr → List Addr} : ∀ {a t}, Den v K a t →
    (∀ b, Reach K a b → K' b = K b ∧ v' b = v b) → Den v' K' a t
  | a, .node d ts, h, hc => by
    simp only [Den_node] at h ⊢
    have := hc a (.refl a)
    rw [this.1, this.2]
    exact ⟨h.1, DenL.congr h.2 (fun c hm b hb => hc b (.step hm hb))⟩
theorem DenL.congr {v v' : Addr → Option β} {K K' : Addr → List Addr} : ∀ {cs ts}, DenL v K cs ts →
    (∀ c ∈ cs, ∀ b, Reach K c b → K' b = K b ∧ v' b = v b) → DenL v' K' cs ts
  | [], ts, h, hc => by simpa using h
  | c :: cs, [], h, hc => by simp at h
  | c :: cs, t :: ts, h, hc => by
    simp only [DenL_cons] at h ⊢
    exact ⟨Den.congr h.1 (hc c (by simp)), DenL.congr h.2 (fun x hx => hc x (by simp [hx]))⟩
end

namespace Inv
variable {h : Heap α} {K : Addr → List Addr}

theorem reach_desc (hI : Inv h K) {a b : Addr} (hr : Reach K a b) :
    a = b ∨ (h.size b).descendants < (h.size a).descendants := by
  induction hr with
  | refl => exact .inl rfl
  | step hm _ ih =>
    right
    have := hI.desc_lt hm
    rcases ih with rfl | ih <;> omega

theorem reach_used (hI : Inv h K) {a b : Addr} (ha : h.Used a) (hr : Reach K a b) : h.Used b := by
  induction hr with
  | refl => exact ha
  | step hm _ ih => exact ih (hI.used_of_mem hm)

/-- Ancestors of a node are linearly ordered. -/
theorem reach_linear (hI : Inv h K) {a b n : Addr} (h1 : Reach K a n) (h2 : Reach K b n) :
    Reach K a b ∨ Reach K b a := by
  induction h1 with
  | refl => exact .inr h2
  | step hm hr ih =>
    rename_i a c n
    rcases ih h2 with h3 | h3
    · exact .inl (.step hm h3)
    · rcases h3.cases_tail with rfl | ⟨p, h4, h5⟩
      · exact .inl (.step hm (.refl _))
      · rw [hI.eq_of_mem h5 hm] at h4; exact .inr h4

/-- Different siblings have disjoint subtrees. -/
theorem sib_disjoint (hI : Inv h K) {p c c' n : Addr} (hc : c ∈ K p) (hc' : c' ∈ K p)
    (h1 : Reach K c n) (h2 : Reach K c' n) : c = c' := by
  have aux : ∀ {c c' : Addr}, c ∈ K p → c' ∈ K p → Reach K c c' → c = c' := by
    intro c c' hc hc' hr
    rcases hr.cases_tail with rfl | ⟨q, h3, h4⟩
    · rfl
    · rw [hI.eq_of_mem h4 hc'] at h3
      have := hI.desc_lt hc
      rcases hI.reach_desc h3 with rfl | h5 <;> omega
  rcases hI.reach_linear h1 h2 with h3 | h3
  · exact aux hc hc' h3
  · exact (aux hc' hc h3).symm

theorem not_reach_up (hI : Inv h K) {p c : Addr} (hc : c ∈ K p) : ¬ Reach K c p := by
  intro hr
  have := hI.desc_lt hc
  rcases hI.reach_desc hr with rfl | h5 <;> omega

/-- Two roots have disjoint subtrees. -/
theorem root_disjoint (hI : Inv h K) {r r' n : Addr} (hr : h.up r = none) (hr' : h.up r' = none)
    (h1 : Reach K r n) (h2 : Reach K r' n) : r = r' := by
  have aux : ∀ {r r' : Addr}, h.up r' = none → Reach K r r' → r = r' := by
    intro r r' hr' h3
    rcases h3.cases_tail with rfl | ⟨q, h3, h4⟩
    · rfl
    · exact absurd h4 (hI.not_mem_of_root hr')
  rcases hI.reach_linear h1 h2 with h3 | h3
  · exact aux hr' h3
  · exact (aux hr h3).symm

/-- A root above `n` is its `RootOf`. -/
theorem rootOf_of_reach (hI : Inv h K) {r n : Addr} (hr : h.up r = none) (h1 : Reach K r n) :
    RootOf h n r := by
  have aux : ∀ {a : Addr}, Reach K a n → RootOf h a r → RootOf h n r := by
    intro a h2
    induction h2 with
    | refl => exact id
    | step hm _ ih => intro hx; exact ih (by assumption) (hx.child (hI.up_of_mem hm))
  exact aux h1 (.self hr)

/-- Every used node lies below some root. -/
theorem exists_root (hI : Inv h K) {n : Addr} (hn : h.Used n) :
    ∃ r, h.Used r ∧ h.up r = none ∧ Reach K r n := by
  obtain ⟨l, c1, -, c3, -, -⟩ := hI.chain hn
  have aux : ∀ (l : List Addr) (n : Addr), UpChain h.up (some n) (n :: l) → (∀ b ∈ n :: l, h.Used b) →
      ∃ r, h.Used r ∧ h.up r = none ∧ Reach K r n := by
    intro l
    induction l with
    | nil => intro n hc hU; exact ⟨n, hU n (by simp), hc.2, .refl _⟩
    | cons p l ih =>
      intro n hc hU
      have hup : h.up n = some p := hc.2.1
      obtain ⟨r, r1, r2, r3⟩ := ih p (by have := hc.2; rwa [hup] at this) (fun b hb => hU b (by simp [hb]))
      exact ⟨r, r1, r2, r3.tail (hI.mem_iff.mpr ⟨hU n (by simp), hup⟩)⟩
  exact aux l n c1 c3

/-- Every used node whose subtree holds values denotes a tree. -/
theorem exists_den (hI : Inv h K) (v : Addr → Option β) (hv : ∀ a c, c ∈ K a → (v c).isSome) :
    ∀ {a : Addr}, h.Used a → ∃ ts, DenL v K (K a) ts := by
  suffices H : ∀ n a, h.Used a → (h.size a).descendants < n → ∃ ts, DenL v K (K a) ts from
    fun {a} ha => H _ a ha (Nat.lt_succ_self _)
  intro n
  induction n with
  | zero => intro a _ h'; omega
  | succ n ih =>
    intro a ha hlt
    have : ∀ cs : List Addr, (∀ c ∈ cs, c ∈ K a) → ∃ ts, DenL v K cs ts := by
      intro cs
      induction cs with
      | nil => intro _; exact ⟨[], by simp⟩
      | cons c cs ihc =>
        intro hcs
        obtain ⟨ts, hts⟩ := ihc (fun x hx => hcs x (by simp [hx]))
        have hc := hcs c (by simp)
        have := hI.desc_lt hc
        obtain ⟨us, hus⟩ := ih c (hI.used_of_mem hc) (by omega)
        obtain ⟨d, hd⟩ := Option.isSome_iff_exists.mp (hv a c hc)
        exact ⟨.node d us :: ts, by simp [hd, hus, hts]⟩
    exact this (K a) (fun _ h => h)

mutual
theorem desc_eq (hI : Inv h K) {v : Addr → Option β} : ∀ {a t}, h.Used a → Den v K a t →
    (h.size a).descendants + 1 = t.count
  | a, .node d ts, ha, hd => by
    simp only [Den_node] at hd
    have := dsum_eq hI (fun c hc => hI.used_of_mem hc) hd.2
    rw [hI.s a ha]
    simp [this]
/-- Cached descendants are the true number of nodes. -/
theorem dsum_eq (hI : Inv h K) {v : Addr → Option β} : ∀ {cs ts}, (∀ c ∈ cs, h.Used c) → DenL v K cs ts →
    dsum h.size cs = RTree.countL ts
  | [], ts, _, hd => by simp at hd; simp [hd]
  | c :: cs, [], _, hd => by simp at hd
  | c :: cs, t :: ts, hU, hd => by
    simp only [DenL_cons] at hd
    have h1 := desc_eq hI (hU c (by simp)) hd.1
    have h2 := dsum_eq hI (fun x hx => hU x (by simp [hx])) hd.2
    simp; omega
end
end Inv

/-! ### Paths -/

/-- The node at path `p` below `a`. -/
def resolve (K : Addr → List Addr) : Addr → Path → Option Addr
  | a, [] => some a
  | a, i :: p => match (K a)[i]? with
    | none => none
    | some c => resolve K c p

theorem resolve_reach {K : Addr → List Addr} {p : Path} : ∀ {a n}, resolve K a p = some n → Reach K a n := by
  induction p with
  | nil => intro a n h; simp [resolve] at h; subst h; exact .refl _
  | cons i p ih =>
    intro a n h
    simp only [resolve] at h
    cases hc : (K a)[i]? with
    | none => simp [hc] at h
    | some c =>
      simp [hc] at h
      exact .step (List.mem_of_getElem? hc) (ih h)

theorem resolve_kidsAt {v : Addr → Option β} {K : Addr → List Addr} {p : Path} : ∀ {a ts}, DenL v K (K a) ts →
    match resolve K a p with
    | none => kidsAt ts p = none
    | some n => ∃ us, kidsAt ts p = some us ∧ DenL v K (K n) us := by
  induction p with
  | nil => intro a ts h; exact ⟨ts, rfl, h⟩
  | cons i p ih =>
    intro a ts h
    rcases h.get i with ⟨h1, h2⟩ | ⟨c, t, h1, h2, h3⟩
    · simp [resolve, h1, kidsAt, h2]
    · simp only [resolve, h1, kidsAt, h2]
      cases t with
      | node d us => simp only [Den_node] at h3; exact ih h3.2

/-- Replacing the child list of the node at `p` (whatever happened strictly below that node). -/
theorem DenL.modify {h : Heap α} {K K' : Addr → List Addr} {v v' : Addr → Option β} (hI : Inv h K) {n : Addr}
    {f : List (RTree β) → List (RTree β)}
    {p : Path} : ∀ {a ts us}, DenL v K (K a) ts → resolve K a p = some n → kidsAt ts p = some us →
    (∀ b, Reach K a b → ¬ Reach K n b → K' b = K b) →
    (∀ b, Reach K a b → (b = n ∨ ¬ Reach K n b) → v' b = v b) →
    DenL v' K' (K' n) (f us) → DenL v' K' (K' a) (modKids ts p f) := by
  induction p with
  | nil =>
    intro a ts us h1 h2 h3 _ _ h5
    simp only [resolve, Option.some.injEq] at h2
    simp only [kidsAt, Option.some.injEq] at h3
    subst h2 h3
    exact h5
  | cons i p ih =>
    intro a ts us h1 h2 h3 h4 hv h5
    rcases h1.get i with ⟨e1, _⟩ | ⟨c, t, e1, e2, e3⟩
    · simp [resolve, e1] at h2
    · simp only [resolve, e1] at h2
      simp only [kidsAt, e2] at h3
      simp only [modKids, e2]
      have hcK := List.mem_of_getElem? e1
      have hcn := resolve_reach h2
      have han : ¬ Reach K n a := by
        intro hr; exact hI.not_reach_up hcK (hcn.trans hr)
      rw [h4 a (.refl a) han]
      cases t with
      | node d ks =>
        simp only [Den_node] at e3
        have ih' := ih e3.2 h2 h3 (fun b hb => h4 b (.step hcK hb)) (fun b hb => hv b (.step hcK hb)) h5
        have hdc : Den v' K' c (.node d (modKids ks p f)) := by
          have hc' : c = n ∨ ¬ Reach K n c := by
            rcases hI.reach_desc hcn with e | h1
            · exact .inl e
            · right; intro h2
              rcases hI.reach_desc h2 with rfl | h2 <;> omega
          rw [Den_node, hv c (.step hcK (.refl _)) hc']; exact ⟨e3.1, ih'⟩
        simp only [RTree.kids_node, RTree.data_node]
        -- the other children are unchanged
        have hnd := hI.l.nodup a
        have hoth : ∀ c' ∈ K a, c' ≠ c → ∀ b, Reach K c' b → K' b = K b ∧ v' b = v b := by
          intro c' hc' hne b hb
          have : ¬ Reach K n b := fun hr => hne (hI.sib_disjoint hc' hcK hb (hcn.trans hr))
          exact ⟨h4 b (.step hc' hb) this, hv b (.step hc' hb) (.inr this)⟩
        obtain ⟨l, r, hKa, hl⟩ : ∃ l r, K a = l ++ c :: r ∧ l.length = i := by
          have hi : i < (K a).length := (List.getElem?_eq_some_iff.mp e1).1
          refine ⟨(K a).take i, (K a).drop (i+1), ?_, by simp; omega⟩
          have : c = (K a)[i] := (List.getElem?_eq_some_iff.mp e1).2.symm
          rw [this]; simp
        rw [hKa] at h1 hnd ⊢
        obtain ⟨t1, t2, rfl, d1, d2⟩ := h1.split
        rw [DenL_cons_left] at d2
        obtain ⟨t, t2, rfl, d2, d3⟩ := d2
        have hlen := d1.length
        have hset : (t1 ++ t :: t2).set i (RTree.node d (modKids ks p f)) = t1 ++ RTree.node d (modKids ks p f) :: t2 := by
          rw [← hl, hlen, List.set_append_right _ _ (by omega)]; simp
        rw [hset]
        have hnotl : c ∉ l := by
          intro hm; simp [List.nodup_append] at hnd; exact (hnd.2.2 c hm).1 rfl
        have hnotr : c ∉ r := by
          intro hm; simp [List.nodup_append] at hnd; exact hnd.2.1.1 hm
        refine DenL.append (d1.congr ?_) ?_
        · intro x hx
          exact hoth x (by rw [hKa]; simp [hx]) (fun e => hnotl (e ▸ hx))
        · rw [DenL_cons]
          refine ⟨hdc, d3.congr ?_⟩
          intro x hx
          exact hoth x (by rw [hKa]; simp [hx]) (fun e => hnotr (e ▸ hx))

end Trees
