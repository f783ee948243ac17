import Verif.Proof.Inv
/-
Insertion of a chain into, and removal of a node from, a child list: pure part.
-/
namespace Trees
variable {α : Type}

def insPrev (pv : Addr → Option Addr) (l xs r : List Addr) : Addr → Option Addr := fun a =>
  if r.head? = some a then xs.getLast? else if xs.head? = some a then l.getLast? else pv a
def insNext (nx : Addr → Option Addr) (l xs r : List Addr) : Addr → Option Addr := fun a =>
  if l.getLast? = some a then xs.head? else if xs.getLast? = some a then r.head? else nx a
def insUp (up : Addr → Option Addr) (xs : List Addr) (u : Addr) : Addr → Option Addr := fun a =>
  if a ∈ xs then some u else up a

def remPrev (pv : Addr → Option Addr) (l : List Addr) (c : Addr) (r : List Addr) : Addr → Option Addr :=
  fun a => if r.head? = some a then l.getLast? else if a = c then none else pv a
def remNext (nx : Addr → Option Addr) (l : List Addr) (c : Addr) (r : List Addr) : Addr → Option Addr :=
  fun a => if l.getLast? = some a then r.head? else if a = c then none else nx a

theorem used_congr {h h' : Heap α} (hl : h'.live = h.live) (hd : h'.data = h.data) (a : Addr) :
    h'.Used a ↔ h.Used a := by simp [Heap.Used, hl, hd]

theorem mem_of_head? {l : List Addr} {a : Addr} (h : l.head? = some a) : a ∈ l :=
  List.mem_of_head? h
theorem mem_of_getLast? {l : List Addr} {a : Addr} (h : l.getLast? = some a) : a ∈ l :=
  List.mem_of_getLast? h

theorem LInvX.insert {h h' : Heap α} {K : Addr → List Addr} {u : Addr} {l xs r : List Addr}
    (hI : LInvX h K xs) (hu : h.Used u) (hK : K u = l ++ r) (hne : xs ≠ [])
    (hxU : ∀ x ∈ xs, h.Used x) (nd : xs.Nodup) (hch : Links h.prev h.next none xs none)
    (hl : h'.live = h.live) (hd : h'.data = h.data)
    (e1 : h'.prev = insPrev h.prev l xs r) (e2 : h'.next = insNext h.next l xs r)
    (e3 : h'.up = insUp h.up xs u) (e4 : h'.head = upd h.head u (l ++ xs ++ r).head?)
    (e5 : h'.tail = upd h.tail u (l ++ xs ++ r).getLast?) :
    LInv h' (upd K u (l ++ xs ++ r)) := by
  have hU := used_congr hl hd
  have hKu : ∀ c, c ∈ l ++ r → h.Used c ∧ c ∉ xs ∧ h.up c = some u := fun c hc =>
    (hI.mem u c).mp (by rw [hK]; exact hc)
  have hndK : (l ++ r).Nodup := by have := hI.nodup u; rwa [hK] at this
  have hlr := List.nodup_append.mp hndK
  have hlx : ∀ c ∈ l, c ∉ xs := fun c hc => (hKu c (by simp [hc])).2.1
  have hrx : ∀ c ∈ r, c ∉ xs := fun c hc => (hKu c (by simp [hc])).2.1
  have hlr' : ∀ c ∈ l, c ∉ r := fun c hc hr => hlr.2.2 c hc c hr rfl
  have frame : ∀ c, c ∉ l → c ∉ r → c ∉ xs → h'.prev c = h.prev c ∧ h'.next c = h.next c := by
    intro c h1 h2 h3
    rw [e1, e2]
    have a1 : r.head? ≠ some c := fun e => h2 (mem_of_head? e)
    have a2 : xs.head? ≠ some c := fun e => h3 (mem_of_head? e)
    have a3 : l.getLast? ≠ some c := fun e => h1 (mem_of_getLast? e)
    have a4 : xs.getLast? ≠ some c := fun e => h3 (mem_of_getLast? e)
    simp [insPrev, insNext, a1, a2, a3, a4]
  refine ⟨?_, ?_, ?_, ?_, ?_, ?_, ?_⟩
  · intro a ha
    rw [e4]; simp only [upd_apply]
    split
    · rfl
    · exact hI.head a ((hU a).mp ha)
  · intro a ha
    rw [e5]; simp only [upd_apply]
    split
    · rfl
    · exact hI.tail a ((hU a).mp ha)
  · intro a c
    simp only [upd_apply, List.not_mem_nil, not_false_eq_true, true_and, hU, e3, insUp]
    by_cases hcx : c ∈ xs
    · by_cases hau : a = u
      · simp [hau, hcx, hxU c hcx]
      · have : c ∉ K a := fun hm => ((hI.mem a c).mp hm).2.1 hcx
        simp only [hau, if_false, this, hcx, if_true, false_iff, not_and]
        intro _ he; exact hau (Option.some.inj he).symm
    · by_cases hau : a = u
      · subst hau
        have := hI.mem a c
        rw [hK] at this
        simp only [List.mem_append] at this ⊢
        simp only [if_true, List.mem_append, hcx, or_false, if_false]
        rw [this]; simp [hcx]
      · have := hI.mem a c
        simp only [hau, if_false, hcx]
        rw [this]; simp [hcx]
  · intro a c hc _ hup
    rw [hU] at hc ⊢
    rw [e3] at hup
    simp only [insUp] at hup
    split at hup
    · rw [← Option.some.inj hup]; exact hu
    · rename_i hcx; exact hI.upU a c hc hcx hup
  · intro a ha
    rw [hU] at ha
    simp only [upd_apply]
    split
    · rename_i hau; subst hau
      have hlk := hI.links a ha
      rw [hK, links_append] at hlk
      obtain ⟨lk1, lk2⟩ := hlk
      rw [links_append, links_append]
      refine ⟨⟨?_, ?_⟩, ?_⟩
      · have : Links h'.prev h.next none l (r.head?.or none) := by
          refine lk1.congr (fun c hc => ⟨?_, rfl⟩)
          have a1 : r.head? ≠ some c := fun e => hlr' c hc (mem_of_head? e)
          have a2 : xs.head? ≠ some c := fun e => hlx c hc (mem_of_head? e)
          rw [e1]; simp [insPrev, a1, a2]
        refine this.right hlr.1 ?_ ?_
        · intro c hc hne'
          have a4 : xs.getLast? ≠ some c := fun e => hlx c hc (mem_of_getLast? e)
          rw [e2]; simp [insNext, hne', a4]
        · intro c hc
          rw [e2]; simp only [insNext, hc, if_true]
          cases xs with
          | nil => exact absurd rfl hne
          | cons x xs => simp
      · have s1 : Links h.prev h'.next none xs (r.head?.or none) := by
          refine hch.right nd ?_ ?_
          · intro c hc hne'
            have a3 : l.getLast? ≠ some c := fun e => hlx c (mem_of_getLast? e) hc
            rw [e2]; simp [insNext, a3, hne']
          · intro c hc
            have a3 : l.getLast? ≠ some c := fun e => hlx c (mem_of_getLast? e) (mem_of_getLast? hc)
            rw [e2]; simp [insNext, a3, hc]
        refine s1.left nd ?_ ?_
        · intro c hc hne'
          have a1 : r.head? ≠ some c := fun e => hrx c (mem_of_head? e) hc
          rw [e1]; simp [insPrev, a1, hne']
        · intro c hc
          have a1 : r.head? ≠ some c := fun e => hrx c (mem_of_head? e) (mem_of_head? hc)
          rw [e1]; simp [insPrev, a1, hc]
      · have s1 : Links h.prev h'.next (l.getLast?.or none) r none := by
          refine lk2.congr (fun c hc => ⟨rfl, ?_⟩)
          have a3 : l.getLast? ≠ some c := fun e => hlr' c (mem_of_getLast? e) hc
          have a4 : xs.getLast? ≠ some c := fun e => hrx c hc (mem_of_getLast? e)
          rw [e2]; simp [insNext, a3, a4]
        refine s1.left hlr.2.1 ?_ ?_
        · intro c hc hne'
          have a2 : xs.head? ≠ some c := fun e => hrx c hc (mem_of_head? e)
          rw [e1]; simp [insPrev, hne', a2]
        · intro c hc
          rw [e1]; simp only [insPrev, hc, if_true]
          have hg := List.getLast?_eq_some_getLast hne
          simp [hg]
    · rename_i hau
      refine (hI.links a ha).congr (fun c hc => ?_)
      have hm := (hI.mem a c).mp hc
      refine frame c ?_ ?_ hm.2.1
      · intro hcl
        have := (hKu c (by simp [hcl])).2.2
        rw [hm.2.2] at this; exact hau (Option.some.inj this)
      · intro hcl
        have := (hKu c (by simp [hcl])).2.2
        rw [hm.2.2] at this; exact hau (Option.some.inj this)
  · intro a
    simp only [upd_apply]
    split
    · rw [List.nodup_append, List.nodup_append]
      refine ⟨⟨hlr.1, nd, ?_⟩, hlr.2.1, ?_⟩
      · rintro c hc d hd rfl; exact hlx c hc hd
      · rintro c hc d hd rfl
        rcases List.mem_append.mp hc with hc | hc
        · exact hlr' c hc hd
        · exact hrx c hd hc
    · exact hI.nodup a
  · intro c hc _ hup
    rw [hU] at hc
    rw [e3] at hup
    simp only [insUp] at hup
    split at hup
    · simp at hup
    · rename_i hcx
      have hr := hI.root c hc hcx hup
      have hn : c ∉ l ++ r := fun hm => by
        have := (hKu c hm).2.2
        rw [hup] at this; simp at this
      simp only [List.mem_append, not_or] at hn
      have := frame c hn.1 hn.2 hcx
      rw [this.1, this.2]; exact hr

theorem LInvX.remove {h h' : Heap α} {K : Addr → List Addr} {u c : Addr} {l r : List Addr}
    (hI : LInv h K) (hK : K u = l ++ c :: r)
    (hl : h'.live = h.live) (hd : h'.data = h.data)
    (e1 : h'.prev = remPrev h.prev l c r) (e2 : h'.next = remNext h.next l c r)
    (e3 : h'.up = upd h.up c none) (e4 : h'.head = upd h.head u (l ++ r).head?)
    (e5 : h'.tail = upd h.tail u (l ++ r).getLast?) :
    LInv h' (upd K u (l ++ r)) := by
  have hU := used_congr hl hd
  have hKu : ∀ x, x ∈ l ++ c :: r → h.Used x ∧ h.up x = some u := fun x hx => by
    have := (hI.mem u x).mp (by rw [hK]; exact hx)
    exact ⟨this.1, this.2.2⟩
  have hndK : (l ++ c :: r).Nodup := by have := hI.nodup u; rwa [hK] at this
  have hlr := List.nodup_append.mp hndK
  have hr := List.nodup_cons.mp hlr.2.1
  have hcl : c ∉ l := fun hm => hlr.2.2 c hm c (by simp) rfl
  have hcr : c ∉ r := hr.1
  have hlr' : ∀ x ∈ l, x ∉ r := fun x hx hxr => hlr.2.2 x hx x (by simp [hxr]) rfl
  have frame : ∀ x, x ∉ l → x ∉ r → x ≠ c → h'.prev x = h.prev x ∧ h'.next x = h.next x := by
    intro x h1 h2 h3
    rw [e1, e2]
    have a1 : r.head? ≠ some x := fun e => h2 (mem_of_head? e)
    have a3 : l.getLast? ≠ some x := fun e => h1 (mem_of_getLast? e)
    simp [remPrev, remNext, a1, a3, h3]
  refine ⟨?_, ?_, ?_, ?_, ?_, ?_, ?_⟩
  · intro a ha
    rw [e4]; simp only [upd_apply]
    split
    · rfl
    · exact hI.head a ((hU a).mp ha)
  · intro a ha
    rw [e5]; simp only [upd_apply]
    split
    · rfl
    · exact hI.tail a ((hU a).mp ha)
  · intro a x
    have hm := hI.mem a x
    simp only [List.not_mem_nil, not_false_eq_true, true_and] at hm
    simp only [upd_apply, List.not_mem_nil, not_false_eq_true, true_and, hU, e3]
    by_cases hxc : x = c
    · subst hxc
      have h2 := (hKu x (by simp)).2
      by_cases hau : a = u
      · simp [hau, hcl, hcr]
      · simp only [hau, if_false, if_true]
        constructor
        · intro hx
          rw [hm, h2] at hx
          exact absurd (Option.some.inj hx.2).symm hau
        · simp
    · by_cases hau : a = u
      · subst hau
        rw [hK] at hm
        simp only [if_true, hxc, if_false]
        rw [← hm]; simp [hxc]
      · simp only [hau, if_false, hxc]; exact hm
  · intro a x hx _ hup
    rw [hU] at hx ⊢
    rw [e3] at hup
    simp only [upd_apply] at hup
    split at hup
    · simp at hup
    · exact hI.upU a x hx (by simp) hup
  · intro a ha
    rw [hU] at ha
    simp only [upd_apply]
    split
    · rename_i hau; subst hau
      have hlk := hI.links a ha
      rw [hK, links_append] at hlk
      obtain ⟨lk1, _, _, lk2⟩ := hlk
      rw [links_append]
      refine ⟨?_, ?_⟩
      · have : Links h'.prev h.next none l ((c :: r).head?.or none) := by
          refine lk1.congr (fun x hx => ⟨?_, rfl⟩)
          have a1 : r.head? ≠ some x := fun e => hlr' x hx (mem_of_head? e)
          have a2 : x ≠ c := fun e => hcl (e ▸ hx)
          rw [e1]; simp [remPrev, a1, a2]
        refine this.right hlr.1 ?_ ?_
        · intro x hx hne'
          have a2 : x ≠ c := fun e => hcl (e ▸ hx)
          rw [e2]; simp [remNext, hne', a2]
        · intro x hx
          rw [e2]; simp [remNext, hx]
      · have s1 : Links h.prev h'.next (some c) r none := by
          refine lk2.congr (fun x hx => ⟨rfl, ?_⟩)
          have a3 : l.getLast? ≠ some x := fun e => hlr' x (mem_of_getLast? e) hx
          have a2 : x ≠ c := fun e => hcr (e ▸ hx)
          rw [e2]; simp [remNext, a3, a2]
        refine s1.left hr.2 ?_ ?_
        · intro x hx hne'
          have a2 : x ≠ c := fun e => hcr (e ▸ hx)
          rw [e1]; simp [remPrev, hne', a2]
        · intro x hx
          rw [e1]; simp [remPrev, hx]
    · rename_i hau
      refine (hI.links a ha).congr (fun x hx => ?_)
      have hm := (hI.mem a x).mp hx
      have key : ∀ y ∈ l ++ c :: r, x ≠ y := by
        rintro y hy rfl
        have := (hKu x hy).2
        rw [hm.2.2] at this; exact hau (Option.some.inj this)
      refine frame x (fun hx => key x (by simp [hx]) rfl) (fun hx => key x (by simp [hx]) rfl)
        (key c (by simp))
  · intro a
    simp only [upd_apply]
    split
    · rw [List.nodup_append]
      exact ⟨hlr.1, hr.2, fun x hx y hy e => hlr' x hx (e ▸ hy)⟩
    · exact hI.nodup a
  · intro x hx _ hup
    rw [hU] at hx
    rw [e3] at hup
    simp only [upd_apply] at hup
    split at hup
    · rename_i hxc; subst hxc
      have a1 : r.head? ≠ some x := fun e => hcr (mem_of_head? e)
      have a3 : l.getLast? ≠ some x := fun e => hcl (mem_of_getLast? e)
      rw [e1, e2]; simp [remPrev, remNext, a1, a3]
    · rename_i hxc
      have hrt := hI.root x hx (by simp) hup
      have hn : ∀ y ∈ l ++ c :: r, x ≠ y := by
        rintro y hy rfl
        have := (hKu x hy).2
        rw [hup] at this; simp at this
      have := frame x (fun hx => hn x (by simp [hx]) rfl) (fun hx => hn x (by simp [hx]) rfl) hxc
      rw [this.1, this.2]; exact hrt

/-- Sizes after inserting the chain `xs` into the child list of `u`. -/
theorem sz_insert {U : Addr → Prop} {s s' : Addr → Size} {K : Addr → List Addr}
    {up : Addr → Option Addr} {u : Addr} {anc l xs r : List Addr}
    (hs : ∀ a, U a → s a = ⟨(K a).length, dsum s (K a)⟩) (hK : K u = l ++ r)
    (hc : UpChain up (some u) (u :: anc)) (nd : (u :: anc).Nodup) (hnd : ∀ a, (K a).Nodup)
    (hmem : ∀ a, ∀ c ∈ u :: anc, (c ∈ K a ↔ up c = some a))
    (hx : ∀ x ∈ xs, x ∉ u :: anc)
    (hs' : ∀ a, s' a = if a ∈ u :: anc then
      ⟨(s a).degree + (if a = u then xs.length else 0), (s a).descendants + dsum s xs⟩ else s a) :
    ∀ a, U a → s' a = ⟨(upd K u (l ++ xs ++ r) a).length, dsum s' (upd K u (l ++ xs ++ r) a)⟩ := by
  intro a ha
  have hb : ∀ a, (s' a).descendants = (s a).descendants + (if a ∈ u :: anc then dsum s xs else 0) := by
    intro a; rw [hs' a]; split <;> simp
  have hd := dsum_bump hb
  have hcp := UpChain.countP hnd hc nd hmem
  have hua : u ∉ anc := (List.nodup_cons.mp nd).1
  by_cases hau : a = u
  · subst hau
    have h1 := hd (K a)
    rw [hcp a, hK] at h1
    simp only [hua, if_false, Nat.mul_zero, Nat.add_zero, dsum_append] at h1
    have h2 : dsum s' xs = dsum s xs := dsum_congr (fun c hc => by
      have := hx c hc
      rw [hb c]; simp only [this, if_false]; omega)
    rw [hs' a, hs a ha, hK]
    simp only [List.mem_cons, true_or, if_true, upd_self, dsum_append, List.length_append]
    congr 1
    · omega
    · omega
  · have h1 := hd (K a)
    rw [hcp a] at h1
    rw [hs' a, upd_of_ne _ _ hau, h1, hs a ha]
    by_cases hm : a ∈ anc
    · simp [hm, hau]
    · simp [hm, hau]

/-- Sizes after removing the child `c` from the child list of `u`. -/
theorem sz_remove {U : Addr → Prop} {s s' : Addr → Size} {K : Addr → List Addr}
    {up : Addr → Option Addr} {u c : Addr} {anc l r : List Addr}
    (hs : ∀ a, U a → s a = ⟨(K a).length, dsum s (K a)⟩) (hK : K u = l ++ c :: r)
    (hc : UpChain up (some u) (u :: anc)) (nd : (u :: anc).Nodup) (hnd : ∀ a, (K a).Nodup)
    (hmem : ∀ a, ∀ c ∈ u :: anc, (c ∈ K a ↔ up c = some a))
    (hcx : c ∉ u :: anc) (hle : ∀ a ∈ u :: anc, (s c).descendants + 1 ≤ (s a).descendants)
    (hs' : ∀ a, s' a = if a ∈ u :: anc then
      ⟨(s a).degree - (if a = u then 1 else 0), (s a).descendants - ((s c).descendants + 1)⟩ else s a) :
    ∀ a, U a → s' a = ⟨(upd K u (l ++ r) a).length, dsum s' (upd K u (l ++ r) a)⟩ := by
  intro a ha
  have hb : ∀ a, (s a).descendants = (s' a).descendants +
      (if a ∈ u :: anc then (s c).descendants + 1 else 0) := by
    intro a; rw [hs' a]
    split
    · rename_i h; have := hle a h; simp only; omega
    · simp
  have hd := dsum_bump hb
  have hcp := UpChain.countP hnd hc nd hmem
  have hua : u ∉ anc := (List.nodup_cons.mp nd).1
  by_cases hau : a = u
  · subst hau
    have h1 := hd (K a)
    rw [hcp a, hK] at h1
    simp only [hua, if_false, Nat.mul_zero, Nat.add_zero, dsum_append, dsum_cons] at h1
    have h3 := hb c
    simp only [hcx, if_false, Nat.add_zero] at h3
    rw [hs' a, hs a ha, hK]
    simp only [List.mem_cons, true_or, if_true, upd_self, dsum_append, List.length_append,
      List.length_cons, dsum_cons]
    congr 1
    · omega
  · have h1 := hd (K a)
    rw [hcp a] at h1
    rw [hs' a, upd_of_ne _ _ hau, hs a ha, h1]
    by_cases hm : a ∈ anc
    · simp [hm, hau]
    · simp [hm, hau]

end Trees
