import Verif.Proof.Surgery
import Verif.Proof.Run
/-
The link operations of the crate preserve the shape invariant.
-/
namespace Trees
variable {α : Type}

/-- Everything except links and sizes is the same. -/
structure Same (h h' : Heap α) : Prop where
  live : h'.live = h.live
  data : h'.data = h.data
  count : h'.count = h.count
  borrow : h'.borrow = h.borrow
  vec : h'.vec = h.vec
  nextAddr : h'.nextAddr = h.nextAddr
  nextVec : h'.nextVec = h.nextVec
  log : h'.log = h.log

theorem Same.refl (h : Heap α) : Same h h := ⟨rfl, rfl, rfl, rfl, rfl, rfl, rfl, rfl⟩
theorem Same.trans {h1 h2 h3 : Heap α} (a : Same h1 h2) (b : Same h2 h3) : Same h1 h3 :=
  ⟨b.live.trans a.live, b.data.trans a.data, b.count.trans a.count, b.borrow.trans a.borrow,
   b.vec.trans a.vec, b.nextAddr.trans a.nextAddr, b.nextVec.trans a.nextVec, b.log.trans a.log⟩
theorem Same.used {h h' : Heap α} (s : Same h h') (a : Addr) : h'.Used a ↔ h.Used a :=
  used_congr s.live s.data a
theorem Same.bnd {h h' : Heap α} (s : Same h h') (b : Bnd h) : Bnd h' := by
  intro a ha; rw [s.nextAddr]; exact b a ((s.used a).mp ha)

/-- `r` is the root above (or equal to) `n`. -/
def RootOf (h : Heap α) (n r : Addr) : Prop :=
  ∃ l, UpChain h.up (some n) (n :: l) ∧ (n :: l).getLast? = some r

theorem RootOf.self {h : Heap α} {r : Addr} (hr : h.up r = none) : RootOf h r r :=
  ⟨[], ⟨rfl, hr⟩, by simp⟩

theorem RootOf.child {h : Heap α} {n c r : Addr} (hn : RootOf h n r) (hc : h.up c = some n) :
    RootOf h c r := by
  obtain ⟨l, h1, h2⟩ := hn
  exact ⟨n :: l, ⟨rfl, by rw [hc]; exact h1⟩, by simpa [List.getLast?_cons] using h2⟩

theorem RootOf.unique {h : Heap α} {n r r' : Addr} (h1 : RootOf h n r) (h2 : RootOf h n r') : r = r' := by
  obtain ⟨l, a, b⟩ := h1
  obtain ⟨l', a', b'⟩ := h2
  have := UpChain.unique a a'
  rw [this, b'] at b
  exact (Option.some.inj b).symm

/-! ### Size loops -/

def bumpUp (s : Addr → Size) (l : List Addr) (cnt : Nat) : Addr → Size := fun a =>
  if a ∈ l then ⟨(s a).degree, (s a).descendants + cnt⟩ else s a
def bumpDown (s : Addr → Size) (l : List Addr) (cnt : Nat) : Addr → Size := fun a =>
  if a ∈ l then ⟨(s a).degree, (s a).descendants - cnt⟩ else s a

theorem incLoop_ok {l : List Addr} : ∀ {h : Heap α} {k : Nat} {o : Option Addr} {cnt : Nat},
    UpChain h.up o l → l.Nodup → (∀ b ∈ l, h.live b = true) → l.length ≤ k →
    incLoop k o cnt h = .ok () { h with size := bumpUp h.size l cnt } := by
  induction l with
  | nil =>
    intro h k o cnt hc _ _ _
    have : o = none := hc
    subst this
    have : bumpUp h.size [] cnt = h.size := by funext a; simp [bumpUp]
    rw [this]
    cases k <;> simp [incLoop]
  | cons b l ih =>
    intro h k o cnt hc nd hl hk
    obtain ⟨rfl, hc⟩ := hc
    cases k with
    | zero => simp at hk
    | succ k =>
      have hb := hl b (by simp)
      simp only [incLoop, getSize, setSize, getUp, M.bind_apply, rd_ok hb, Res.bind_ok, wr_ok hb]
      rw [rd_ok (by simpa using hb)]
      simp only [Res.bind_ok]
      rw [ih (by exact hc) (List.nodup_cons.mp nd).2
        (fun x hx => by simpa using hl x (by simp [hx])) (by simpa using hk)]
      congr 2
      funext a
      have hbl : b ∉ l := (List.nodup_cons.mp nd).1
      simp only [bumpUp, upd_apply, List.mem_cons]
      by_cases hab : a = b
      · subst hab; simp [hbl]
      · simp [hab]

theorem decLoop_ok {l : List Addr} : ∀ {h : Heap α} {k : Nat} {o : Option Addr} {cnt : Nat},
    UpChain h.up o l → l.Nodup → (∀ b ∈ l, h.live b = true) →
    (∀ b ∈ l, cnt ≤ (h.size b).descendants) → l.length ≤ k →
    decLoop k o cnt h = .ok () { h with size := bumpDown h.size l cnt } := by
  induction l with
  | nil =>
    intro h k o cnt hc _ _ _ _
    have : o = none := hc
    subst this
    have : bumpDown h.size [] cnt = h.size := by funext a; simp [bumpDown]
    rw [this]
    cases k <;> simp [decLoop]
  | cons b l ih =>
    intro h k o cnt hc nd hl hle hk
    obtain ⟨rfl, hc⟩ := hc
    cases k with
    | zero => simp at hk
    | succ k =>
      have hb := hl b (by simp)
      have hbl : b ∉ l := (List.nodup_cons.mp nd).1
      have hnot : ¬ (h.size b).descendants < cnt := by have := hle b (by simp); omega
      simp only [decLoop, getSize, setSize, getUp, M.bind_apply, rd_ok hb, Res.bind_ok, hnot, if_false,
        wr_ok hb]
      rw [rd_ok (by simpa using hb)]
      simp only [Res.bind_ok]
      rw [ih (by exact hc) (List.nodup_cons.mp nd).2
        (fun x hx => by simpa using hl x (by simp [hx])) ?_ (by simpa using hk)]
      · congr 2
        funext a
        simp only [bumpDown, upd_apply, List.mem_cons]
        by_cases hab : a = b
        · subst hab; simp [hbl]
        · simp [hab]
      · intro x hx
        have hxb : x ≠ b := fun e => hbl (e ▸ hx)
        simpa [upd_apply, hxb] using hle x (by simp [hx])

theorem incSizes_ok {h : Heap α} {n : Addr} {l : List Addr} {deg cnt : Nat}
    (hc : UpChain h.up (some n) (n :: l)) (nd : (n :: l).Nodup) (hl : ∀ b ∈ n :: l, h.live b = true)
    (hk : l.length < h.nextAddr) :
    incSizes n deg cnt h = .ok () { h with size := fun a => if a ∈ n :: l then
      ⟨(h.size a).degree + (if a = n then deg else 0), (h.size a).descendants + cnt⟩ else h.size a } := by
  have hn := hl n (by simp)
  simp only [incSizes, getSize, setSize, getUp, M.bind_apply, rd_ok hn, Res.bind_ok, wr_ok hn]
  rw [rd_ok (by simpa using hn)]
  simp only [Res.bind_ok, M.fuelled_apply]
  rw [incLoop_ok (l := l) (by exact hc.2) (List.nodup_cons.mp nd).2
    (fun x hx => by simpa using hl x (by simp [hx])) (by simpa using Nat.le_of_lt hk)]
  congr 2
  funext a
  have hbl : n ∉ l := (List.nodup_cons.mp nd).1
  simp only [bumpUp, upd_apply, List.mem_cons]
  by_cases hab : a = n
  · subst hab; simp [hbl]
  · simp [hab]

theorem decSizes_ok {h : Heap α} {n : Addr} {l : List Addr} {deg cnt : Nat}
    (hc : UpChain h.up (some n) (n :: l)) (nd : (n :: l).Nodup) (hl : ∀ b ∈ n :: l, h.live b = true)
    (hk : l.length < h.nextAddr) (hdeg : deg ≤ (h.size n).degree)
    (hle : ∀ b ∈ n :: l, cnt ≤ (h.size b).descendants) :
    decSizes n deg cnt h = .ok () { h with size := fun a => if a ∈ n :: l then
      ⟨(h.size a).degree - (if a = n then deg else 0), (h.size a).descendants - cnt⟩ else h.size a } := by
  have hn := hl n (by simp)
  have hbl : n ∉ l := (List.nodup_cons.mp nd).1
  have hnot : ¬ ((h.size n).degree < deg ∨ (h.size n).descendants < cnt) := by
    have := hle n (by simp); omega
  simp only [decSizes, getSize, setSize, getUp, M.bind_apply, rd_ok hn, Res.bind_ok, hnot, if_false,
    wr_ok hn]
  rw [rd_ok (by simpa using hn)]
  simp only [Res.bind_ok, M.fuelled_apply]
  rw [decLoop_ok (l := l) (by exact hc.2) (List.nodup_cons.mp nd).2
    (fun x hx => by simpa using hl x (by simp [hx])) ?_ (by simpa using Nat.le_of_lt hk)]
  · congr 2
    funext a
    simp only [bumpDown, upd_apply, List.mem_cons]
    by_cases hab : a = n
    · subst hab; simp [hbl]
    · simp [hab]
  · intro x hx
    have hxb : x ≠ n := fun e => hbl (e ▸ hx)
    simpa [upd_apply, hxb] using hle x (by simp [hx])

/-! ### Attaching -/

/-- Data of an ordinary node (not a forest root): it holds a user value. -/
def Heap.IsVal (h : Heap α) (a : Addr) : Prop := (h.data a).val?.isSome = true

theorem Heap.IsVal.notForest {h : Heap α} {a : Addr} (hv : h.IsVal a) : (h.data a).isForest = false := by
  unfold Heap.IsVal at hv
  cases hd : h.data a <;> simp [hd, Data.val?] at hv <;> rfl

/-- Common final step of all insertions: if the links and sizes of `h'` are those of `h` with the
chain `xs` inserted, the invariant holds. -/
theorem Inv.insert {h h' : Heap α} {K : Addr → List Addr} {u : Addr} {anc l xs r : List Addr}
    (hX : LInvX h K xs) (hS : SzInv h K) (hB : Bnd h)
    (hu : h.Used u) (hK : K u = l ++ r) (hne : xs ≠ [])
    (hxU : ∀ x ∈ xs, h.Used x) (nd : xs.Nodup) (hch : Links h.prev h.next none xs none)
    (same : Same h h')
    (e1 : h'.prev = insPrev h.prev l xs r) (e2 : h'.next = insNext h.next l xs r)
    (e3 : h'.up = insUp h.up xs u) (e4 : h'.head = upd h.head u (l ++ xs ++ r).head?)
    (e5 : h'.tail = upd h.tail u (l ++ xs ++ r).getLast?)
    (hc : UpChain h.up (some u) (u :: anc)) (ndc : (u :: anc).Nodup)
    (hcU : ∀ b ∈ u :: anc, h.Used b)
    (hx : ∀ x ∈ xs, x ∉ u :: anc)
    (e6 : ∀ a, h'.size a = if a ∈ u :: anc then
      ⟨(h.size a).degree + (if a = u then xs.length else 0),
        (h.size a).descendants + dsum h.size xs⟩ else h.size a) :
    Inv h' (upd K u (l ++ xs ++ r)) := by
  refine ⟨hX.insert hu hK hne hxU nd hch same.live same.data e1 e2 e3 e4 e5, ?_, same.bnd hB⟩
  have := sz_insert (U := h.Used) (s := h.size) (s' := h'.size) hS hK hc ndc hX.nodup
    (fun a c hcm => by
      rw [hX.mem]
      have h1 := hcU c hcm
      have h2 : c ∉ xs := fun hx' => hx c hx' hcm
      simp [h1, h2]) hx e6
  intro a ha
  exact this a ((same.used a).mp ha)

theorem Inv.remove {h h' : Heap α} {K : Addr → List Addr} {u c : Addr} {anc l r : List Addr}
    (hI : Inv h K) (hK : K u = l ++ c :: r)
    (same : Same h h')
    (e1 : h'.prev = remPrev h.prev l c r) (e2 : h'.next = remNext h.next l c r)
    (e3 : h'.up = upd h.up c none) (e4 : h'.head = upd h.head u (l ++ r).head?)
    (e5 : h'.tail = upd h.tail u (l ++ r).getLast?)
    (hc : UpChain h.up (some u) (u :: anc)) (ndc : (u :: anc).Nodup)
    (hcU : ∀ b ∈ u :: anc, h.Used b)
    (hdesc : ∀ b ∈ u :: anc, (h.size u).descendants ≤ (h.size b).descendants)
    (e6 : ∀ a, h'.size a = if a ∈ u :: anc then
      ⟨(h.size a).degree - (if a = u then 1 else 0),
        (h.size a).descendants - ((h.size c).descendants + 1)⟩ else h.size a) :
    Inv h' (upd K u (l ++ r)) := by
  refine ⟨LInvX.remove hI.l hK same.live same.data e1 e2 e3 e4 e5, ?_, same.bnd hI.b⟩
  have hcK : c ∈ K u := by rw [hK]; simp
  have hlt := hI.desc_lt hcK
  have := sz_remove (U := h.Used) (s := h.size) (s' := h'.size) hI.s hK hc ndc hI.l.nodup
    (fun a b hb => by
      rw [hI.mem_iff]
      simp [hcU b hb])
    (fun hm => by have := hdesc c hm; omega)
    (fun a ha => by have := hdesc a ha; omega) e6
  intro a ha
  exact this a ((same.used a).mp ha)

/-- A root is floating. -/
theorem LInvX.of_root {h : Heap α} {K : Addr → List Addr} (hI : LInv h K) {t : Addr}
    (ht : h.up t = none) : LInvX h K [t] := by
  refine ⟨hI.head, hI.tail, ?_, ?_, hI.links, hI.nodup, ?_⟩
  · intro a c
    rw [hI.mem]
    simp only [List.not_mem_nil, not_false_eq_true, true_and, List.mem_singleton]
    constructor
    · rintro ⟨h1, h2⟩
      refine ⟨h1, ?_, h2⟩
      rintro rfl
      rw [ht] at h2; simp at h2
    · rintro ⟨h1, _, h2⟩; exact ⟨h1, h2⟩
  · intro a c h1 _ h2; exact hI.upU a c h1 (by simp) h2
  · intro c h1 _ h2; exact hI.root c h1 (by simp) h2

/-- Hypotheses shared by the operations that attach the root `t` in the tree of `u`. -/
structure Attach (h : Heap α) (K : Addr → List Addr) (u t : Addr) : Prop where
  inv : Inv h K
  uU : h.Used u
  tU : h.Used t
  tV : h.IsVal t
  tr : h.up t = none
  ne : ∃ r, RootOf h u r ∧ r ≠ t

namespace Attach
variable {h : Heap α} {K : Addr → List Addr} {u t : Addr}

theorem chain (A : Attach h K u t) : ∃ anc, UpChain h.up (some u) (u :: anc) ∧ (u :: anc).Nodup ∧
    (∀ b ∈ u :: anc, h.Used b) ∧ anc.length < h.nextAddr ∧ t ∉ u :: anc := by
  obtain ⟨anc, c1, c2, c3, c4, _⟩ := A.inv.chain A.uU
  refine ⟨anc, c1, c2, c3, c4, ?_⟩
  intro hm
  obtain ⟨r, ⟨l, d1, d2⟩, hr⟩ := A.ne
  have e := UpChain.unique c1 d1
  have := UpChain.last c1 hm A.tr
  rw [e, d2] at this
  exact hr (Option.some.inj this)

theorem tne (A : Attach h K u t) : t ≠ u := by
  obtain ⟨anc, _, _, _, _, h5⟩ := A.chain
  intro e; exact h5 (by simp [e])

theorem tlinks (A : Attach h K u t) : h.prev t = none ∧ h.next t = none :=
  A.inv.l.root t A.tU (by simp) A.tr

theorem finish {h' : Heap α} {l r : List Addr} (A : Attach h K u t) (hK : K u = l ++ r) (same : Same h h')
    (e1 : h'.prev = insPrev h.prev l [t] r) (e2 : h'.next = insNext h.next l [t] r)
    (e3 : h'.up = insUp h.up [t] u) (e4 : h'.head = upd h.head u (l ++ [t] ++ r).head?)
    (e5 : h'.tail = upd h.tail u (l ++ [t] ++ r).getLast?)
    {anc : List Addr}
    (hc : UpChain h.up (some u) (u :: anc)) (ndc : (u :: anc).Nodup)
    (hcU : ∀ b ∈ u :: anc, h.Used b)
    (hx : t ∉ u :: anc)
    (e6 : ∀ a, h'.size a = if a ∈ u :: anc then
      ⟨(h.size a).degree + (if a = u then 1 else 0),
        (h.size a).descendants + ((h.size t).descendants + 1)⟩ else h.size a) :
    Inv h' (upd K u (l ++ [t] ++ r)) := by
  refine Inv.insert (LInvX.of_root A.inv.l A.tr) A.inv.s A.inv.b A.uU hK (by simp)
    (by simpa using A.tU) (by simp) ?_ same e1 e2 e3 e4 e5 hc ndc hcU (by simpa using hx) ?_
  · exact ⟨A.tlinks.1, by simpa using A.tlinks.2, trivial⟩
  · simpa using e6
end Attach

end Trees
