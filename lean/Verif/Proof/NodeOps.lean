import Verif.Proof.Ops
/-
Specifications of the child list operations of `Node<T>`.
-/
namespace Trees
set_option linter.unusedSimpArgs false
variable {α : Type}

/-- Equality of link arrays, pointwise. -/
syntax "link_eq" " [" ident,* "]" : tactic
macro_rules
  | `(tactic| link_eq [$xs,*]) => `(tactic|
      (funext a
       simp only [insPrev, insNext, insUp, remPrev, remNext, upd_apply, List.head?_nil, List.head?_cons,
        List.getLast?_nil, List.getLast?_singleton, List.getLast?_append, Option.some_or, Option.some.injEq,
        reduceCtorEq, if_false, List.nil_append, List.append_nil]
       try (clear * - $xs*; grind)))

theorem chain_upd {up : Addr → Option Addr} {v : Option Addr} {u t : Addr} {anc : List Addr}
    (hc : UpChain up (some u) (u :: anc)) (ht : t ∉ u :: anc) :
    UpChain (upd up t v) (some u) (u :: anc) := by
  refine hc.congr (fun b hb => ?_)
  have : b ≠ t := fun e => ht (e ▸ hb)
  simp [upd_apply, this]

theorem insUp_single (up : Addr → Option Addr) (t u : Addr) : insUp up [t] u = upd up t (some u) := by
  funext a; simp [insUp, upd_apply]

theorem pushBack_ok {h : Heap α} {K : Addr → List Addr} {u t : Addr} (A : Attach h K u t) :
    ∃ h', pushBack u t h = .ok () h' ∧ Same h h' ∧ Inv h' (upd K u (K u ++ [t])) := by
  obtain ⟨anc, c1, c2, c3, c4, c5⟩ := A.chain
  have hlu := A.uU.1
  have hlt := A.tU.1
  have htu := A.tne
  have hut : u ≠ t := fun e => htu e.symm
  have hnf := A.tV.notForest
  have htl := A.tlinks
  have hlive : ∀ b ∈ u :: anc, h.live b = true := fun b hb => (c3 b hb).1
  have hhead := A.inv.l.head u A.uU
  have htail := A.inv.l.tail u A.uU
  rcases List.eq_nil_or_concat (K u) with hk | ⟨ks, z, hk⟩
  · rw [hk] at hhead htail
    simp only [List.head?_nil, List.getLast?_nil] at hhead htail
    simp only [pushBack, M.bind_apply, Res.bind_ok, setUp_ok hlt, hasNoChild_ok, hhead, Option.isNone_none, if_true,
       setHead_ok, setTail_ok, nodeCount_ok, hlt, hlu, hnf]
    rw [incSizes_ok (l := anc)]
    rotate_left
    · exact chain_upd c1 c5
    · exact c2
    · exact hlive
    · exact c4
    refine ⟨_, rfl, ⟨rfl, rfl, rfl, rfl, rfl, rfl, rfl, rfl⟩, ?_⟩
    have e : K u ++ [t] = [] ++ [t] ++ [] := by simp [hk]
    rw [e]
    refine A.finish (by simp [hk]) ⟨rfl, rfl, rfl, rfl, rfl, rfl, rfl, rfl⟩ ?_ ?_ ?_ ?_ ?_ c1 c2 c3 c5 ?_
    · funext a; simp [insPrev]; rintro rfl; exact htl.1
    · funext a; simp [insNext]; rintro rfl; exact htl.2
    · simp [insUp_single]
    · simp
    · simp
    · simp
  · have hz : h.live z = true := (A.inv.used_of_mem (a := u) (by rw [hk]; simp)).1
    have hzt : z ≠ t := by
      intro e; exact A.inv.not_mem_of_root A.tr (a := u) (by rw [hk, e]; simp)
    have hh : (h.head u).isNone = false := by rw [hhead, hk]; cases ks <;> simp
    have hh' : h.head u = ((ks ++ [z]) ++ [t] ++ []).head? := by rw [hhead, hk]; cases ks <;> simp
    rw [hk] at htail
    simp at htail
    simp only [pushBack, M.bind_apply, Res.bind_ok, setUp_ok hlt, hasNoChild_ok, hh, Bool.false_eq_true, if_false,
       getTail_ok, htail, unwrap_some, connectNext_ok, M.pure_apply, hz,
       setHead_ok, setTail_ok, nodeCount_ok, hlt, hlu, hnf]
    rw [incSizes_ok (l := anc)]
    rotate_left
    · exact chain_upd c1 c5
    · exact c2
    · exact hlive
    · exact c4
    refine ⟨_, rfl, ⟨rfl, rfl, rfl, rfl, rfl, rfl, rfl, rfl⟩, ?_⟩
    have e : K u ++ [t] = (ks ++ [z]) ++ [t] ++ [] := by simp [hk]
    rw [e]
    refine A.finish (by simp [hk]) ⟨rfl, rfl, rfl, rfl, rfl, rfl, rfl, rfl⟩ ?_ ?_ ?_ ?_ ?_ c1 c2 c3 c5 ?_
    · link_eq [htl]
    · link_eq [htl]
    · simp [insUp_single]
    · funext a; simp only [upd_apply]; split
      · rename_i e; rw [e, hh']
      · rfl
    · simp
    · simp

theorem pushFront_ok {h : Heap α} {K : Addr → List Addr} {u t : Addr} (A : Attach h K u t) :
    ∃ h', pushFront u t h = .ok () h' ∧ Same h h' ∧ Inv h' (upd K u (t :: K u)) := by
  obtain ⟨anc, c1, c2, c3, c4, c5⟩ := A.chain
  have hlu := A.uU.1
  have hlt := A.tU.1
  have htu := A.tne
  have hut : u ≠ t := fun e => htu e.symm
  have hnf := A.tV.notForest
  have htl := A.tlinks
  have hlive : ∀ b ∈ u :: anc, h.live b = true := fun b hb => (c3 b hb).1
  have hhead := A.inv.l.head u A.uU
  have htail := A.inv.l.tail u A.uU
  have e : t :: K u = [] ++ [t] ++ K u := by simp
  rw [e]
  cases hk : K u with
  | nil =>
    rw [hk] at hhead htail
    simp only [List.head?_nil, List.getLast?_nil] at hhead htail
    simp only [pushFront, M.bind_apply, Res.bind_ok, setUp_ok hlt, hasNoChild_ok, hhead, Option.isNone_none, if_true,
       setHead_ok, setTail_ok, nodeCount_ok, hlt, hlu, hnf]
    rw [incSizes_ok (l := anc)]
    rotate_left
    · exact chain_upd c1 c5
    · exact c2
    · exact hlive
    · exact c4
    refine ⟨_, rfl, ⟨rfl, rfl, rfl, rfl, rfl, rfl, rfl, rfl⟩, ?_⟩
    refine A.finish (by simp [hk]) ⟨rfl, rfl, rfl, rfl, rfl, rfl, rfl, rfl⟩ ?_ ?_ ?_ ?_ ?_ c1 c2 c3 c5 ?_
    · link_eq [htl]
    · link_eq [htl]
    · simp [insUp_single]
    · simp
    · simp
    · simp
  | cons z ks =>
    have hz : h.live z = true := (A.inv.used_of_mem (a := u) (by rw [hk]; simp)).1
    have hzt : z ≠ t := by
      intro e; exact A.inv.not_mem_of_root A.tr (a := u) (by rw [hk, e]; simp)
    rw [hk] at hhead htail
    simp only [List.head?_cons] at hhead
    simp only [pushFront, M.bind_apply, Res.bind_ok, setUp_ok hlt, hasNoChild_ok, hhead, Option.isNone_some,
       Bool.false_eq_true, if_false,
       getHead_ok, unwrap_some, connectNext_ok, M.pure_apply, hz,
       setHead_ok, nodeCount_ok, hlt, hlu, hnf]
    rw [incSizes_ok (l := anc)]
    rotate_left
    · exact chain_upd c1 c5
    · exact c2
    · exact hlive
    · exact c4
    refine ⟨_, rfl, ⟨rfl, rfl, rfl, rfl, rfl, rfl, rfl, rfl⟩, ?_⟩
    refine A.finish (by simp [hk]) ⟨rfl, rfl, rfl, rfl, rfl, rfl, rfl, rfl⟩ ?_ ?_ ?_ ?_ ?_ c1 c2 c3 c5 ?_
    · link_eq [htl]
    · link_eq [htl]
    · simp [insUp_single]
    · simp
    · funext a; simp only [upd_apply]; split
      · rename_i e; rw [e, htail]; simp
      · rfl
    · simp

theorem Inv.prev_next {h : Heap α} {K : Addr → List Addr} (hI : Inv h K) {u s : Addr} {l r : List Addr}
    (hK : K u = l ++ s :: r) : h.prev s = l.getLast? ∧ h.next s = r.head? := by
  have := hI.l.links u (hI.used_parent (c := s) (by rw [hK]; simp))
  rw [hK, links_append] at this
  have h2 := this.2
  simp only [Links] at h2
  exact ⟨by simpa using h2.1, by simpa using h2.2.1⟩

theorem insertPrevSib_ok {h : Heap α} {K : Addr → List Addr} {u s t : Addr} {l r : List Addr}
    (A : Attach h K u t) (hK : K u = l ++ s :: r) :
    ∃ h', insertPrevSib s t h = .ok () h' ∧ Same h h' ∧ Inv h' (upd K u (l ++ t :: s :: r)) := by
  obtain ⟨anc, c1, c2, c3, c4, c5⟩ := A.chain
  have hlu := A.uU.1
  have hlt := A.tU.1
  have htu := A.tne
  have hut : u ≠ t := fun e => htu e.symm
  have hnf := A.tV.notForest
  have htl := A.tlinks
  have hlive : ∀ b ∈ u :: anc, h.live b = true := fun b hb => (c3 b hb).1
  have hsK : s ∈ K u := by rw [hK]; simp
  have hls := (A.inv.used_of_mem hsK).1
  have hus := A.inv.up_of_mem hsK
  have hst : s ≠ t := by rintro rfl; exact A.inv.not_mem_of_root A.tr hsK
  have hhead := A.inv.l.head u A.uU
  have htail := A.inv.l.tail u A.uU
  obtain ⟨hpv, hnx⟩ := A.inv.prev_next hK
  have e : l ++ t :: s :: r = l ++ [t] ++ (s :: r) := by simp
  have hnd := A.inv.l.nodup u
  rw [hK] at hnd hhead htail
  have htail' : h.tail u = (l ++ [t] ++ s :: r).getLast? := by rw [htail]; simp [List.getLast?_cons]
  rw [e]
  rcases List.eq_nil_or_concat l with hk | ⟨ks, z, hk⟩
  · subst hk
    simp only [List.getLast?_nil] at hpv
    simp only [insertPrevSib, M.bind_apply, Res.bind_ok, getUp_ok, hls, hus, setUp_ok, hlt, getPrev_ok, hpv,
      setHead_ok, hlu, connectNext_ok, nodeCount_ok, hnf]
    rw [incSizes_ok (l := anc)]
    rotate_left
    · exact chain_upd c1 c5
    · exact c2
    · exact hlive
    · exact c4
    refine ⟨_, rfl, ⟨rfl, rfl, rfl, rfl, rfl, rfl, rfl, rfl⟩, ?_⟩
    refine A.finish (by simp [hK]) ⟨rfl, rfl, rfl, rfl, rfl, rfl, rfl, rfl⟩ ?_ ?_ ?_ ?_ ?_ c1 c2 c3 c5 ?_
    · link_eq [htl, hst, hut]
    · link_eq [htl, hst, hut]
    · simp [insUp_single]
    · simp
    · funext a; simp only [upd_apply]; split
      · rename_i e; rw [e, htail']
      · rfl
    · simp
  · rw [List.concat_eq_append] at hk
    subst hk
    have hzK : z ∈ K u := by rw [hK]; simp
    have hz : h.live z = true := (A.inv.used_of_mem hzK).1
    have hzt : z ≠ t := by rintro rfl; exact A.inv.not_mem_of_root A.tr hzK
    have hzs : z ≠ s := by rintro rfl; simp [List.nodup_append] at hnd
    simp only [List.getLast?_append, List.getLast?_singleton, Option.some_or] at hpv
    have hhead' : h.head u = ((ks ++ [z]) ++ [t] ++ s :: r).head? := by rw [hhead]; cases ks <;> simp
    simp only [insertPrevSib, M.bind_apply, Res.bind_ok, getUp_ok, hls, hus, setUp_ok, hlt, getPrev_ok, hpv,
      hlu, connectNext_ok, nodeCount_ok, hnf, hz]
    rw [incSizes_ok (l := anc)]
    rotate_left
    · exact chain_upd c1 c5
    · exact c2
    · exact hlive
    · exact c4
    refine ⟨_, rfl, ⟨rfl, rfl, rfl, rfl, rfl, rfl, rfl, rfl⟩, ?_⟩
    refine A.finish (by simp [hK]) ⟨rfl, rfl, rfl, rfl, rfl, rfl, rfl, rfl⟩ ?_ ?_ ?_ ?_ ?_ c1 c2 c3 c5 ?_
    · link_eq [htl, hst, hzt, hzs]
    · link_eq [htl, hst, hzt, hzs]
    · simp [insUp_single]
    · funext a; simp only [upd_apply]; split
      · rename_i e; rw [e, hhead']
      · rfl
    · funext a; simp only [upd_apply]; split
      · rename_i e; rw [e, htail']
      · rfl
    · simp

theorem insertNextSib_ok {h : Heap α} {K : Addr → List Addr} {u s t : Addr} {l r : List Addr}
    (A : Attach h K u t) (hK : K u = l ++ s :: r) :
    ∃ h', insertNextSib s t h = .ok () h' ∧ Same h h' ∧ Inv h' (upd K u (l ++ s :: t :: r)) := by
  obtain ⟨anc, c1, c2, c3, c4, c5⟩ := A.chain
  have hlu := A.uU.1
  have hlt := A.tU.1
  have htu := A.tne
  have hut : u ≠ t := fun e => htu e.symm
  have hnf := A.tV.notForest
  have htl := A.tlinks
  have hlive : ∀ b ∈ u :: anc, h.live b = true := fun b hb => (c3 b hb).1
  have hsK : s ∈ K u := by rw [hK]; simp
  have hls := (A.inv.used_of_mem hsK).1
  have hus := A.inv.up_of_mem hsK
  have hst : s ≠ t := by rintro rfl; exact A.inv.not_mem_of_root A.tr hsK
  have hhead := A.inv.l.head u A.uU
  have htail := A.inv.l.tail u A.uU
  obtain ⟨hpv, hnx⟩ := A.inv.prev_next hK
  have e : l ++ s :: t :: r = (l ++ [s]) ++ [t] ++ r := by simp
  have hnd := A.inv.l.nodup u
  rw [hK] at hnd hhead htail
  have hhead' : h.head u = ((l ++ [s]) ++ [t] ++ r).head? := by rw [hhead]; cases l <;> simp
  rw [e]
  cases r with
  | nil =>
    simp only [List.head?_nil] at hnx
    simp only [insertNextSib, M.bind_apply, Res.bind_ok, getUp_ok, hls, hus, setUp_ok, hlt, getNext_ok, hnx,
      setTail_ok, hlu, connectNext_ok, nodeCount_ok, hnf]
    rw [incSizes_ok (l := anc)]
    rotate_left
    · exact chain_upd c1 c5
    · exact c2
    · exact hlive
    · exact c4
    refine ⟨_, rfl, ⟨rfl, rfl, rfl, rfl, rfl, rfl, rfl, rfl⟩, ?_⟩
    refine A.finish (by simp [hK]) ⟨rfl, rfl, rfl, rfl, rfl, rfl, rfl, rfl⟩ ?_ ?_ ?_ ?_ ?_ c1 c2 c3 c5 ?_
    · link_eq [htl, hst, hut]
    · link_eq [htl, hst, hut]
    · simp [insUp_single]
    · funext a; simp only [upd_apply]; split
      · rename_i e; rw [e, hhead']
      · rfl
    · simp
    · simp
  | cons z ks =>
    have hzK : z ∈ K u := by rw [hK]; simp
    have hz : h.live z = true := (A.inv.used_of_mem hzK).1
    have hzt : z ≠ t := by rintro rfl; exact A.inv.not_mem_of_root A.tr hzK
    have hzs : z ≠ s := by rintro rfl; simp [List.nodup_append] at hnd
    simp only [List.head?_cons] at hnx
    have htail' : h.tail u = ((l ++ [s]) ++ [t] ++ z :: ks).getLast? := by
      rw [htail]; simp [List.getLast?_cons]
    simp only [insertNextSib, M.bind_apply, Res.bind_ok, getUp_ok, hls, hus, setUp_ok, hlt, getNext_ok, hnx,
      hlu, connectNext_ok, nodeCount_ok, hnf, hz]
    rw [incSizes_ok (l := anc)]
    rotate_left
    · exact chain_upd c1 c5
    · exact c2
    · exact hlive
    · exact c4
    refine ⟨_, rfl, ⟨rfl, rfl, rfl, rfl, rfl, rfl, rfl, rfl⟩, ?_⟩
    refine A.finish (by simp [hK]) ⟨rfl, rfl, rfl, rfl, rfl, rfl, rfl, rfl⟩ ?_ ?_ ?_ ?_ ?_ c1 c2 c3 c5 ?_
    · link_eq [htl, hst, hzt, hzs]
    · link_eq [htl, hst, hzt, hzs]
    · simp [insUp_single]
    · funext a; simp only [upd_apply]; split
      · rename_i e; rw [e, hhead']
      · rfl
    · funext a; simp only [upd_apply]; split
      · rename_i e; rw [e, htail']
      · rfl
    · simp


/-! ### Taking children out -/

theorem popFront_nil {h : Heap α} {K : Addr → List Addr} {u : Addr} (hI : Inv h K) (hu : h.Used u)
    (hK : K u = []) : popFront u h = .ok none h := by
  have hs := hI.s u hu
  rw [hK] at hs
  simp [popFront, getSize_ok, hu.1, hs]

theorem popBack_nil {h : Heap α} {K : Addr → List Addr} {u : Addr} (hI : Inv h K) (hu : h.Used u)
    (hK : K u = []) : popBack u h = .ok none h := by
  have hs := hI.s u hu
  rw [hK] at hs
  simp [popBack, getSize_ok, hu.1, hs]

/-- What removing the child `c` from the child list of `u` does. -/
def Removed (h h' : Heap α) (K : Addr → List Addr) (u c : Addr) (ks : List Addr) : Prop :=
  Same h h' ∧ h'.up = upd h.up c none ∧ Inv h' (upd K u ks)

theorem popFront_ok {h : Heap α} {K : Addr → List Addr} {u c : Addr} {ks : List Addr} (hI : Inv h K)
    (hK : K u = c :: ks) : ∃ h', popFront u h = .ok (some c) h' ∧ Removed h h' K u c ks := by
  have hcK : c ∈ K u := by rw [hK]; simp
  have hu := hI.used_parent hcK
  have hlu := hu.1
  have hlc := (hI.used_of_mem hcK).1
  have hs := hI.s u hu
  have hdl := hI.desc_lt hcK
  have huc : u ≠ c := by rintro rfl; exact hI.not_self hcK
  obtain ⟨anc, c1, c2, c3, c4, c5⟩ := hI.chain hu
  have hlive : ∀ b ∈ u :: anc, h.live b = true := fun b hb => (c3 b hb).1
  have hle : ∀ b ∈ u :: anc, (h.size c).descendants + 1 ≤ (h.size b).descendants := by
    intro b hb; have := c5 b hb; omega
  have hhead := hI.l.head u hu
  have htail := hI.l.tail u hu
  have hnd := hI.l.nodup u
  obtain ⟨hpv, hnx⟩ := hI.prev_next (l := []) (by simpa using hK)
  rw [hK] at hhead htail hs hnd
  simp only [List.head?_cons, List.getLast?_nil] at hhead hpv
  have hdeg : (h.size u).degree = ks.length + 1 := by rw [hs]; simp
  cases ks with
  | nil =>
    simp only [List.length_nil, Nat.zero_add] at hdeg
    simp only [popFront, M.bind_apply, Res.bind_ok, getSize_ok, hlu, hdeg, getHead_ok, hhead, unwrap_some,
      M.pure_apply, setHead_ok, setTail_ok, hlc]
    rw [decSizes_ok (l := anc)]
    rotate_left
    · exact c1
    · exact c2
    · exact hlive
    · exact c4
    · simp [hdeg]
    · exact hle
    simp only [Res.bind_ok, treeFromNode_ok, hlc, M.pure_apply]
    refine ⟨_, rfl, ⟨rfl, rfl, rfl, rfl, rfl, rfl, rfl, rfl⟩, rfl, ?_⟩
    refine Inv.remove (l := []) (c := c) (r := []) (anc := anc) hI (by simp [hK]) ⟨rfl, rfl, rfl, rfl, rfl, rfl, rfl, rfl⟩
      ?_ ?_ rfl ?_ ?_ c1 c2 c3 c5 ?_
    · link_eq [hpv]
    · link_eq [hnx]
    · simp
    · simp
    · intro a; rfl
  | cons z ks =>
    have hzK : z ∈ K u := by rw [hK]; simp
    have hz : h.live z = true := (hI.used_of_mem hzK).1
    have hzc : z ≠ c := by rintro rfl; simp at hnd
    simp only [List.head?_cons] at hnx
    simp only [popFront, M.bind_apply, Res.bind_ok, getSize_ok, hlu, hdeg, getHead_ok, hhead, unwrap_some,
      M.pure_apply, setHead_ok, setPrev_ok, setNext_ok, hlc, hz, getNext_ok, hnx, List.length_cons]
    rw [decSizes_ok (l := anc)]
    rotate_left
    · exact c1
    · exact c2
    · exact hlive
    · exact c4
    · simp [hdeg]
    · exact hle
    simp only [Res.bind_ok, treeFromNode_ok, hlc, M.pure_apply]
    refine ⟨_, rfl, ⟨rfl, rfl, rfl, rfl, rfl, rfl, rfl, rfl⟩, rfl, ?_⟩
    refine Inv.remove (l := []) (c := c) (r := z :: ks) (anc := anc) hI (by simp [hK]) ⟨rfl, rfl, rfl, rfl, rfl, rfl, rfl, rfl⟩
      ?_ ?_ rfl ?_ ?_ c1 c2 c3 c5 ?_
    · link_eq [hpv]
    · link_eq [hnx]
    · simp
    · funext a; simp only [upd_apply]; split
      · rename_i e; rw [e, htail]; simp [List.getLast?_cons]
      · rfl
    · intro a; rfl

theorem popBack_ok {h : Heap α} {K : Addr → List Addr} {u c : Addr} {ks : List Addr} (hI : Inv h K)
    (hK : K u = ks ++ [c]) : ∃ h', popBack u h = .ok (some c) h' ∧ Removed h h' K u c ks := by
  have hcK : c ∈ K u := by rw [hK]; simp
  have hu := hI.used_parent hcK
  have hlu := hu.1
  have hlc := (hI.used_of_mem hcK).1
  have hs := hI.s u hu
  have hdl := hI.desc_lt hcK
  have huc : u ≠ c := by rintro rfl; exact hI.not_self hcK
  obtain ⟨anc, c1, c2, c3, c4, c5⟩ := hI.chain hu
  have hlive : ∀ b ∈ u :: anc, h.live b = true := fun b hb => (c3 b hb).1
  have hle : ∀ b ∈ u :: anc, (h.size c).descendants + 1 ≤ (h.size b).descendants := by
    intro b hb; have := c5 b hb; omega
  have hhead := hI.l.head u hu
  have htail := hI.l.tail u hu
  have hnd := hI.l.nodup u
  obtain ⟨hpv, hnx⟩ := hI.prev_next (l := ks) (s := c) (r := []) (by simpa using hK)
  rw [hK] at hhead htail hs hnd
  simp only [List.getLast?_append, List.getLast?_singleton, Option.some_or, List.head?_nil] at htail hnx
  have hdeg : (h.size u).degree = ks.length + 1 := by rw [hs]; simp
  rcases List.eq_nil_or_concat ks with hk | ⟨ks', z, hk⟩
  · subst hk
    simp only [List.length_nil, Nat.zero_add] at hdeg
    simp only [List.getLast?_nil] at hpv
    simp only [popBack, M.bind_apply, Res.bind_ok, getSize_ok, hlu, hdeg, getTail_ok, htail, unwrap_some,
      M.pure_apply, setHead_ok, setTail_ok, hlc]
    rw [decSizes_ok (l := anc)]
    rotate_left
    · exact c1
    · exact c2
    · exact hlive
    · exact c4
    · simp [hdeg]
    · exact hle
    simp only [Res.bind_ok, treeFromNode_ok, hlc, M.pure_apply]
    refine ⟨_, rfl, ⟨rfl, rfl, rfl, rfl, rfl, rfl, rfl, rfl⟩, rfl, ?_⟩
    refine Inv.remove (l := []) (c := c) (r := []) (anc := anc) hI (by simp [hK]) ⟨rfl, rfl, rfl, rfl, rfl, rfl, rfl, rfl⟩
      ?_ ?_ rfl ?_ ?_ c1 c2 c3 c5 ?_
    · link_eq [hpv]
    · link_eq [hnx]
    · simp
    · simp
    · intro a; rfl
  · rw [List.concat_eq_append] at hk
    subst hk
    have hzK : z ∈ K u := by rw [hK]; simp
    have hz : h.live z = true := (hI.used_of_mem hzK).1
    have hzc : z ≠ c := by rintro rfl; simp [List.nodup_append] at hnd
    simp only [List.getLast?_append, List.getLast?_singleton, Option.some_or] at hpv
    simp only [List.length_append, List.length_cons, List.length_nil, Nat.zero_add] at hdeg
    simp only [popBack, M.bind_apply, Res.bind_ok, getSize_ok, hlu, hdeg, getTail_ok, htail, unwrap_some,
      M.pure_apply, setTail_ok, setPrev_ok, setNext_ok, hlc, hz, getPrev_ok, hpv]
    rw [decSizes_ok (l := anc)]
    rotate_left
    · exact c1
    · exact c2
    · exact hlive
    · exact c4
    · simp [hdeg]
    · exact hle
    simp only [Res.bind_ok, treeFromNode_ok, hlc, M.pure_apply]
    refine ⟨_, rfl, ⟨rfl, rfl, rfl, rfl, rfl, rfl, rfl, rfl⟩, rfl, ?_⟩
    have e : ks' ++ [z] = ks' ++ [z] ++ [] := by simp
    rw [e]
    refine Inv.remove (l := ks' ++ [z]) (c := c) (r := []) (anc := anc) hI (by simp [hK]) ⟨rfl, rfl, rfl, rfl, rfl, rfl, rfl, rfl⟩
      ?_ ?_ rfl ?_ ?_ c1 c2 c3 c5 ?_
    · link_eq [hpv]
    · link_eq [hnx, hzc]
    · funext a; simp only [upd_apply]; split
      · rename_i e; rw [e, hhead]; cases ks' <;> simp
      · rfl
    · simp
    · intro a; rfl

theorem detach_ok {h : Heap α} {K : Addr → List Addr} {u c : Addr} {l r : List Addr} (hI : Inv h K)
    (hK : K u = l ++ c :: r) (hV : h.IsVal c) :
    ∃ h', detach c h = .ok c h' ∧ Removed h h' K u c (l ++ r) := by
  have hcK : c ∈ K u := by rw [hK]; simp
  have hu := hI.used_parent hcK
  have hup := hI.up_of_mem hcK
  have hlu := hu.1
  have hlc := (hI.used_of_mem hcK).1
  have hs := hI.s u hu
  have hdl := hI.desc_lt hcK
  have hnf := hV.notForest
  have huc : u ≠ c := by rintro rfl; exact hI.not_self hcK
  obtain ⟨anc, c1, c2, c3, c4, c5⟩ := hI.chain hu
  have hlive : ∀ b ∈ u :: anc, h.live b = true := fun b hb => (c3 b hb).1
  have hle : ∀ b ∈ u :: anc, (h.size c).descendants + 1 ≤ (h.size b).descendants := by
    intro b hb; have := c5 b hb; omega
  have hhead := hI.l.head u hu
  have htail := hI.l.tail u hu
  have hnd := hI.l.nodup u
  obtain ⟨hpv, hnx⟩ := hI.prev_next hK
  rw [hK] at hhead htail hs hnd
  have hdeg : (h.size u).degree = l.length + r.length + 1 := by rw [hs]; simp; omega
  rcases List.eq_nil_or_concat l with hk | ⟨ks', z, hk⟩
  · subst hk
    simp only [List.getLast?_nil] at hpv
    cases r with
    | nil =>
      simp only [List.length_nil, Nat.zero_add] at hdeg
      simp only [List.head?_nil] at hnx
      simp only [detach, M.bind_apply, Res.bind_ok, getUp_ok, hup, getSize_ok, hlu, hdeg, unwrap_some,
        M.pure_apply, setHead_ok, setTail_ok, hlc, nodeCount_ok, hnf]
      rw [decSizes_ok (l := anc)]
      rotate_left
      · exact c1
      · exact c2
      · exact hlive
      · exact c4
      · simp [hdeg]
      · exact hle
      simp only [Res.bind_ok, setUp_ok, hlc, M.pure_apply]
      refine ⟨_, rfl, ⟨rfl, rfl, rfl, rfl, rfl, rfl, rfl, rfl⟩, rfl, ?_⟩
      refine Inv.remove (l := []) (c := c) (r := []) (anc := anc) hI (by simp [hK]) ⟨rfl, rfl, rfl, rfl, rfl, rfl, rfl, rfl⟩
        ?_ ?_ rfl ?_ ?_ c1 c2 c3 c5 ?_
      · link_eq [hpv]
      · link_eq [hnx]
      · simp
      · simp
      · intro a; rfl
    | cons z ks =>
      have hzK : z ∈ K u := by rw [hK]; simp
      have hz : h.live z = true := (hI.used_of_mem hzK).1
      have hzc : z ≠ c := by rintro rfl; simp at hnd
      simp only [List.head?_cons] at hnx
      simp only [List.length_nil, Nat.zero_add, List.length_cons] at hdeg
      simp only [detach, M.bind_apply, Res.bind_ok, getUp_ok, hup, getSize_ok, hlu, hdeg, unwrap_some,
        M.pure_apply, setHead_ok, setPrev_ok, setNext_ok, hlc, nodeCount_ok, hnf, getPrev_ok, getNext_ok, hpv, hnx,
        Option.isNone_none, if_true, hz]
      rw [decSizes_ok (l := anc)]
      rotate_left
      · exact c1
      · exact c2
      · exact hlive
      · exact c4
      · simp [hdeg]
      · exact hle
      simp only [Res.bind_ok, setUp_ok, hlc, M.pure_apply]
      refine ⟨_, rfl, ⟨rfl, rfl, rfl, rfl, rfl, rfl, rfl, rfl⟩, rfl, ?_⟩
      refine Inv.remove (l := []) (c := c) (r := z :: ks) (anc := anc) hI (by simp [hK]) ⟨rfl, rfl, rfl, rfl, rfl, rfl, rfl, rfl⟩
        ?_ ?_ rfl ?_ ?_ c1 c2 c3 c5 ?_
      · link_eq [hpv]
      · link_eq [hnx]
      · simp
      · funext a; simp only [upd_apply]; split
        · rename_i e; rw [e, htail]; simp [List.getLast?_cons]
        · rfl
      · intro a; rfl
  · rw [List.concat_eq_append] at hk
    subst hk
    have hzK : z ∈ K u := by rw [hK]; simp
    have hz : h.live z = true := (hI.used_of_mem hzK).1
    have hzc : z ≠ c := by rintro rfl; simp [List.nodup_append] at hnd
    simp only [List.getLast?_append, List.getLast?_singleton, Option.some_or] at hpv
    simp only [List.length_append, List.length_cons, List.length_nil, Nat.zero_add] at hdeg
    cases r with
    | nil =>
      simp only [List.head?_nil] at hnx
      have hd2 : (h.size u).degree = ks'.length + 1 + 1 := by simpa using hdeg
      simp only [detach, M.bind_apply, Res.bind_ok, getUp_ok, hup, getSize_ok, hlu, hd2, unwrap_some,
        M.pure_apply, setTail_ok, setPrev_ok, setNext_ok, hlc, nodeCount_ok, hnf, getPrev_ok, getNext_ok, hpv, hnx,
        Option.isNone_some, Option.isNone_none, if_true, if_false, Bool.false_eq_true, hz]
      rw [decSizes_ok (l := anc)]
      rotate_left
      · exact c1
      · exact c2
      · exact hlive
      · exact c4
      · simp [hd2]
      · exact hle
      simp only [Res.bind_ok, setUp_ok, hlc, M.pure_apply]
      refine ⟨_, rfl, ⟨rfl, rfl, rfl, rfl, rfl, rfl, rfl, rfl⟩, rfl, ?_⟩
      refine Inv.remove (l := ks' ++ [z]) (c := c) (r := []) (anc := anc) hI (by simp [hK]) ⟨rfl, rfl, rfl, rfl, rfl, rfl, rfl, rfl⟩
        ?_ ?_ rfl ?_ ?_ c1 c2 c3 c5 ?_
      · link_eq [hpv]
      · link_eq [hnx, hzc]
      · funext a; simp only [upd_apply]; split
        · rename_i e; rw [e, hhead]; cases ks' <;> simp
        · rfl
      · simp
      · intro a; rfl
    | cons w ks =>
      have hwK : w ∈ K u := by rw [hK]; simp
      have hw : h.live w = true := (hI.used_of_mem hwK).1
      have hwc : w ≠ c := by rintro rfl; simp [List.nodup_append] at hnd
      simp only [List.head?_cons] at hnx
      have hd2 : ∃ m, (h.size u).degree = m + 1 + 1 := ⟨ks'.length + (ks.length + 1), by rw [hdeg]; simp; omega⟩
      obtain ⟨m, hd2⟩ := hd2
      simp only [detach, M.bind_apply, Res.bind_ok, getUp_ok, hup, getSize_ok, hlu, hd2, unwrap_some,
        M.pure_apply, setPrev_ok, setNext_ok, connectNext_ok, hlc, nodeCount_ok, hnf, getPrev_ok, getNext_ok, hpv, hnx,
        Option.isNone_some, if_false, Bool.false_eq_true, hz, hw]
      rw [decSizes_ok (l := anc)]
      rotate_left
      · exact c1
      · exact c2
      · exact hlive
      · exact c4
      · simp [hd2]
      · exact hle
      simp only [Res.bind_ok, setUp_ok, hlc, M.pure_apply]
      refine ⟨_, rfl, ⟨rfl, rfl, rfl, rfl, rfl, rfl, rfl, rfl⟩, rfl, ?_⟩
      refine Inv.remove (l := ks' ++ [z]) (c := c) (r := w :: ks) (anc := anc) hI (by simp [hK]) ⟨rfl, rfl, rfl, rfl, rfl, rfl, rfl, rfl⟩
        ?_ ?_ rfl ?_ ?_ c1 c2 c3 c5 ?_
      · link_eq [hwc]
      · link_eq [hzc]
      · funext a; simp only [upd_apply]; split
        · rename_i e; rw [e, hhead]; cases ks' <;> simp
        · rfl
      · funext a; simp only [upd_apply]; split
        · rename_i e; rw [e, htail]; simp [List.getLast?_cons]
        · rfl
      · intro a; rfl

end Trees
