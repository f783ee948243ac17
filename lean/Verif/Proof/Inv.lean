import Verif.Model.Node
import Mathlib.Data.List.Nodup
import Batteries.Data.List.Perm
/-
The shape invariant of the heap and its preservation under list surgery (pure part, no programs).
-/
namespace Trees
variable {α : Type}

/-- A node in use: live memory holding a data variant other than `Data::None`. -/
def Heap.Used (h : Heap α) (a : Addr) : Prop := h.live a = true ∧ (h.data a).isNone = false

/-- `ks` is a doubly linked chain, preceded by `l` and followed by `r`. -/
def Links (pv nx : Addr → Option Addr) : Option Addr → List Addr → Option Addr → Prop
  | _, [], _ => True
  | l, c :: cs, r => pv c = l ∧ nx c = (cs.head?).or r ∧ Links pv nx (some c) cs r

theorem Links.congr {pv nx pv' nx' : Addr → Option Addr} {ks : List Addr} :
    ∀ {l r : Option Addr}, Links pv nx l ks r → (∀ c ∈ ks, pv' c = pv c ∧ nx' c = nx c) →
    Links pv' nx' l ks r := by
  induction ks with
  | nil => intros; trivial
  | cons c cs ih =>
    intro l r h hc
    obtain ⟨h1, h2, h3⟩ := h
    have := hc c (by simp)
    exact ⟨by rw [this.1, h1], by rw [this.2, h2], ih h3 (fun x hx => hc x (by simp [hx]))⟩

theorem links_append {pv nx : Addr → Option Addr} {xs ys : List Addr} :
    ∀ {l r : Option Addr}, Links pv nx l (xs ++ ys) r ↔
      Links pv nx l xs (ys.head?.or r) ∧ Links pv nx (xs.getLast?.or l) ys r := by
  induction xs with
  | nil => intro l r; simp [Links]
  | cons x xs ih =>
    intro l r
    simp only [List.cons_append, Links, ih]
    have e1 : (xs ++ ys).head?.or r = xs.head?.or (ys.head?.or r) := by
      cases xs <;> simp
    have e2 : ((x :: xs).getLast?).or l = xs.getLast?.or (some x) := by
      cases xs with
      | nil => simp
      | cons z zs => simp [List.getLast?_cons]
    rw [e1, e2]
    constructor
    · rintro ⟨a, b, c, d⟩; exact ⟨⟨a, b, c⟩, d⟩
    · rintro ⟨⟨a, b, c⟩, d⟩; exact ⟨a, b, c, d⟩

/-- Change of the right neighbour: only the last `next` matters. -/
theorem Links.right {pv nx nx' : Addr → Option Addr} {ks : List Addr} {l r r' : Option Addr}
    (h : Links pv nx l ks r) (nd : ks.Nodup) (h1 : ∀ c ∈ ks, ks.getLast? ≠ some c → nx' c = nx c)
    (h2 : ∀ c, ks.getLast? = some c → nx' c = r') : Links pv nx' l ks r' := by
  induction ks generalizing l with
  | nil => trivial
  | cons c cs ih =>
    obtain ⟨a, b, d⟩ := h
    refine ⟨a, ?_, ?_⟩
    · cases cs with
      | nil => simpa using h2 c (by simp)
      | cons e es =>
        have hne : (c :: e :: es).getLast? ≠ some c := by
          intro hh
          have hm : c ∈ (e :: es) := by
            have : (e :: es).getLast? = some c := by simpa [List.getLast?_cons] using hh
            exact List.mem_of_getLast? this
          exact (List.nodup_cons.mp nd).1 hm
        rw [h1 c (by simp) hne, b]; simp
    · cases cs with
      | nil => trivial
      | cons e es =>
        have e1 : (c :: e :: es).getLast? = (e :: es).getLast? := by simp [List.getLast?_cons]
        rw [e1] at h1 h2
        exact ih d (List.nodup_cons.mp nd).2 (fun x hx => h1 x (by simp [hx])) h2

/-- Change of the left neighbour: only the first `prev` matters. -/
theorem Links.left {pv nx pv' : Addr → Option Addr} {ks : List Addr} {l l' r : Option Addr}
    (h : Links pv nx l ks r) (nd : ks.Nodup) (h1 : ∀ c ∈ ks, ks.head? ≠ some c → pv' c = pv c)
    (h2 : ∀ c, ks.head? = some c → pv' c = l') : Links pv' nx l' ks r := by
  cases ks with
  | nil => trivial
  | cons c cs =>
    obtain ⟨a, b, d⟩ := h
    refine ⟨h2 c (by simp), b, ?_⟩
    refine d.congr (fun x hx => ⟨h1 x (by simp [hx]) ?_, rfl⟩)
    intro hh
    simp at hh
    subst hh
    exact (List.nodup_cons.mp nd).1 hx

/-- The shape invariant, for all links except the ones of the floating nodes `X`
(nodes just taken out of, or not yet put into, a child list).
`K a` is the list of children of `a`. -/
structure LInvX (h : Heap α) (K : Addr → List Addr) (X : List Addr) : Prop where
  head : ∀ a, h.Used a → h.head a = (K a).head?
  tail : ∀ a, h.Used a → h.tail a = (K a).getLast?
  mem : ∀ a c, c ∈ K a ↔ h.Used c ∧ c ∉ X ∧ h.up c = some a
  upU : ∀ a c, h.Used c → c ∉ X → h.up c = some a → h.Used a
  links : ∀ a, h.Used a → Links h.prev h.next none (K a) none
  nodup : ∀ a, (K a).Nodup
  root : ∀ c, h.Used c → c ∉ X → h.up c = none → h.prev c = none ∧ h.next c = none

/-- The shape invariant. -/
abbrev LInv (h : Heap α) (K : Addr → List Addr) : Prop := LInvX h K []

/-- Sum of (descendants + 1) over a child list. -/
def dsum (s : Addr → Size) (ks : List Addr) : Nat := (ks.map (fun c => (s c).descendants + 1)).sum

@[simp] theorem dsum_nil (s) : dsum s [] = 0 := rfl
@[simp] theorem dsum_cons (s) (c) (ks) : dsum s (c :: ks) = (s c).descendants + 1 + dsum s ks := by
  simp [dsum]
@[simp] theorem dsum_append (s) (xs ys) : dsum s (xs ++ ys) = dsum s xs + dsum s ys := by
  simp [dsum]
theorem dsum_congr {s s' : Addr → Size} {ks} (h : ∀ c ∈ ks, (s' c).descendants = (s c).descendants) :
    dsum s' ks = dsum s ks := by
  induction ks with
  | nil => rfl
  | cons c cs ih =>
    simp only [dsum_cons]
    rw [h c (by simp), ih (fun x hx => h x (by simp [hx]))]
theorem le_dsum {s : Addr → Size} {ks c} (h : c ∈ ks) : (s c).descendants + 1 ≤ dsum s ks := by
  induction ks with
  | nil => simp at h
  | cons d ds ih =>
    simp only [dsum_cons]
    rcases List.mem_cons.mp h with rfl | h
    · omega
    · have := ih h; omega

/-- Sizes are locally consistent: degree is the number of children, descendants is the sum over the
children of (their descendants + 1). -/
def SzInv (h : Heap α) (K : Addr → List Addr) : Prop :=
  ∀ a, h.Used a → h.size a = ⟨(K a).length, dsum h.size (K a)⟩

/-- Used addresses have been allocated. -/
def Bnd (h : Heap α) : Prop := ∀ a, h.Used a → a < h.nextAddr

/-- Full shape invariant. -/
structure Inv (h : Heap α) (K : Addr → List Addr) : Prop where
  l : LInv h K
  s : SzInv h K
  b : Bnd h

namespace Inv
variable {h : Heap α} {K : Addr → List Addr}

theorem mem_iff (hI : Inv h K) {a c : Addr} : c ∈ K a ↔ h.Used c ∧ h.up c = some a := by
  rw [hI.l.mem]; simp
theorem used_of_mem (hI : Inv h K) {a c : Addr} (hc : c ∈ K a) : h.Used c := (hI.mem_iff.mp hc).1
theorem up_of_mem (hI : Inv h K) {a c : Addr} (hc : c ∈ K a) : h.up c = some a := (hI.mem_iff.mp hc).2
theorem used_parent (hI : Inv h K) {a c : Addr} (hc : c ∈ K a) : h.Used a :=
  hI.l.upU a c (hI.used_of_mem hc) (by simp) (hI.up_of_mem hc)
theorem desc_lt (hI : Inv h K) {a c : Addr} (hc : c ∈ K a) :
    (h.size c).descendants < (h.size a).descendants := by
  have := le_dsum (s := h.size) hc
  rw [hI.s a (hI.used_parent hc)]; simp; omega
theorem eq_of_mem (hI : Inv h K) {a b c : Addr} (ha : c ∈ K a) (hb : c ∈ K b) : a = b := by
  have h1 := hI.up_of_mem ha
  have h2 := hI.up_of_mem hb
  rw [h1] at h2; exact Option.some.inj h2
theorem not_mem_of_root (hI : Inv h K) {a c : Addr} (hc : h.up c = none) : c ∉ K a := by
  intro hm; rw [hI.up_of_mem hm] at hc; simp at hc
theorem not_self (hI : Inv h K) {a : Addr} : a ∉ K a := by
  intro hm; exact absurd (hI.desc_lt hm) (by omega)
end Inv

/-! ### Chains of ancestors -/

/-- `l` is the list of nodes met by following `up` from `o` until the root. -/
def UpChain (up : Addr → Option Addr) : Option Addr → List Addr → Prop
  | o, [] => o = none
  | o, b :: l => o = some b ∧ UpChain up (up b) l

theorem UpChain.congr {up up' : Addr → Option Addr} {l : List Addr} :
    ∀ {o}, UpChain up o l → (∀ b ∈ l, up' b = up b) → UpChain up' o l := by
  induction l with
  | nil => intro o h _; exact h
  | cons b l ih =>
    intro o h hc
    refine ⟨h.1, ?_⟩
    rw [hc b (by simp)]
    exact ih h.2 (fun x hx => hc x (by simp [hx]))

theorem UpChain.unique {up : Addr → Option Addr} {l l' : List Addr} :
    ∀ {o}, UpChain up o l → UpChain up o l' → l = l' := by
  induction l generalizing l' with
  | nil =>
    intro o h h'
    cases l' with
    | nil => rfl
    | cons b l' => obtain ⟨e, _⟩ := h'; simp [UpChain] at h; simp [h] at e
  | cons b l ih =>
    intro o h h'
    obtain ⟨e, h2⟩ := h
    cases l' with
    | nil => simp [UpChain] at h'; simp [h'] at e
    | cons b' l' =>
      obtain ⟨e', h2'⟩ := h'
      rw [e] at e'
      obtain rfl := Option.some.inj e'
      rw [ih h2 h2']

/-- A member of the chain that has no parent is the last one; used to exclude other roots. -/
theorem UpChain.last {up : Addr → Option Addr} {l : List Addr} :
    ∀ {o b}, UpChain up o l → b ∈ l → up b = none → l.getLast? = some b := by
  induction l with
  | nil => intro o b _ hb; simp at hb
  | cons c l ih =>
    intro o b h hb hu
    rcases List.mem_cons.mp hb with rfl | hb
    · have := h.2
      rw [hu] at this
      cases l with
      | nil => simp
      | cons x xs => simp [UpChain] at this
    · have := ih h.2 hb hu
      cases l with
      | nil => simp at hb
      | cons x xs => simpa [List.getLast?_cons] using this

theorem length_le_of_nodup_lt {l : List Nat} {n : Nat} (nd : l.Nodup) (h : ∀ x ∈ l, x < n) :
    l.length ≤ n := by
  have := (List.subperm_of_subset nd (l₂ := List.range n) (fun x hx => by simpa using h x hx)).length_le
  simpa using this

theorem exists_bound (f : Nat → Nat) (n : Nat) : ∃ B, ∀ a < n, f a ≤ B := by
  induction n with
  | zero => exact ⟨0, by simp⟩
  | succ n ih =>
    obtain ⟨B, hB⟩ := ih
    refine ⟨max B (f n), fun a ha => ?_⟩
    rcases Nat.lt_succ_iff_lt_or_eq.mp ha with h | rfl
    · have := hB a h; omega
    · omega

theorem Inv.chain {h : Heap α} {K : Addr → List Addr} (hI : Inv h K) {n : Addr} (hn : h.Used n) :
    ∃ l, UpChain h.up (some n) (n :: l) ∧ (n :: l).Nodup ∧ (∀ b ∈ n :: l, h.Used b) ∧
      l.length < h.nextAddr ∧ (∀ b ∈ n :: l, (h.size n).descendants ≤ (h.size b).descendants) := by
  obtain ⟨B, hB⟩ := exists_bound (fun a => (h.size a).descendants) h.nextAddr
  have key : ∀ k n, h.Used n → B - (h.size n).descendants ≤ k →
      ∃ l, UpChain h.up (some n) (n :: l) ∧ (n :: l).Nodup ∧
        (∀ b ∈ n :: l, h.Used b ∧ (h.size n).descendants ≤ (h.size b).descendants) := by
    intro k
    induction k with
    | zero =>
      intro n hn hk
      cases hu : h.up n with
      | none => exact ⟨[], by simp [UpChain, hu], by simp, by simp [hn]⟩
      | some p =>
        have hm : n ∈ K p := hI.mem_iff.mpr ⟨hn, hu⟩
        have h1 := hI.desc_lt hm
        have h2 := hB p (hI.b p (hI.used_parent hm))
        omega
    | succ k ih =>
      intro n hn hk
      cases hu : h.up n with
      | none => exact ⟨[], by simp [UpChain, hu], by simp, by simp [hn]⟩
      | some p =>
        have hm : n ∈ K p := hI.mem_iff.mpr ⟨hn, hu⟩
        have h1 := hI.desc_lt hm
        obtain ⟨l, c1, c2, c3⟩ := ih p (hI.used_parent hm) (by omega)
        refine ⟨p :: l, ⟨rfl, by rw [hu]; exact c1⟩, ?_, ?_⟩
        · refine List.nodup_cons.mpr ⟨?_, c2⟩
          intro hmem
          have := (c3 n hmem).2
          omega
        · intro b hb
          rcases List.mem_cons.mp hb with rfl | hb
          · exact ⟨hn, by omega⟩
          · have := c3 b hb
            exact ⟨this.1, by omega⟩
  obtain ⟨l, c1, c2, c3⟩ := key _ n hn (Nat.le_refl _)
  refine ⟨l, c1, c2, fun b hb => (c3 b hb).1, ?_, fun b hb => (c3 b hb).2⟩
  have := length_le_of_nodup_lt c2 (n := h.nextAddr) (fun x hx => hI.b x (c3 x hx).1)
  simp only [List.length_cons] at this; omega

/-- In the child list of `a` exactly the node whose parent is `a` lies on a chain. -/
theorem UpChain.countP {up : Addr → Option Addr} {K : Addr → List Addr} (hnd : ∀ a, (K a).Nodup) :
    ∀ {l : List Addr} {n}, UpChain up (some n) (n :: l) → (n :: l).Nodup →
      (∀ a, ∀ c ∈ n :: l, (c ∈ K a ↔ up c = some a)) →
      ∀ a, (K a).countP (· ∈ n :: l) = if a ∈ l then 1 else 0 := by
  intro l
  induction l with
  | nil =>
    intro n hc nd hmem a
    have hup : up n = none := hc.2
    simp only [List.not_mem_nil, if_false]
    rw [List.countP_eq_zero]
    intro c hc'
    simp only [List.mem_cons, List.not_mem_nil, or_false, decide_eq_true_eq]
    rintro rfl
    have := (hmem a c (by simp)).mp hc'
    rw [hup] at this; simp at this
  | cons p l ih =>
    intro n hc nd hmem a
    obtain ⟨_, hc2⟩ := hc
    have hup : up n = some p := hc2.1
    rw [hup] at hc2
    have ih' := ih hc2 (List.nodup_cons.mp nd).2 (fun a b hb => hmem a b (List.mem_cons_of_mem _ hb)) a
    have split : (K a).countP (· ∈ n :: p :: l) = (K a).countP (· ∈ p :: l) + (K a).count n := by
      have hn : n ∉ p :: l := (List.nodup_cons.mp nd).1
      generalize K a = ks
      induction ks with
      | nil => simp
      | cons c cs ihc =>
        rw [List.countP_cons, List.countP_cons, List.count_cons, ihc]
        by_cases hcn : c = n
        · subst hcn
          have h1 : ¬ (c = p ∨ c ∈ l) := by simpa using hn
          simp [h1]; omega
        · simp [hcn]
          omega
    rw [split, ih']
    by_cases hap : a = p
    · subst hap
      have hnK : n ∈ K a := (hmem a n (by simp)).mpr hup
      have hal : a ∉ l := (List.nodup_cons.mp (List.nodup_cons.mp nd).2).1
      have := List.count_eq_one_of_mem (hnd a) hnK
      simp [hal, this]
    · have hnK : n ∉ K a := by
        intro hm
        have := (hmem a n (by simp)).mp hm
        rw [hup] at this
        exact hap (Option.some.inj this).symm
      simp [hap, List.count_eq_zero_of_not_mem hnK]

theorem dsum_bump {s s' : Addr → Size} {ch : List Addr} {cnt : Nat}
    (hs : ∀ a, (s' a).descendants = (s a).descendants + (if a ∈ ch then cnt else 0)) (ks : List Addr) :
    dsum s' ks = dsum s ks + cnt * ks.countP (· ∈ ch) := by
  induction ks with
  | nil => simp
  | cons c cs ih =>
    simp only [dsum_cons, List.countP_cons, ih, hs c]
    by_cases hc : c ∈ ch <;> simp [hc, Nat.mul_add] <;> omega

end Trees
