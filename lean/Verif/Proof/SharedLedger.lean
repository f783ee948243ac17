import Verif.Spec.SharedLedger
import Verif.Proof.Ledger
import Verif.Proof.SharedSim
/-
Counting data items before and after every call of the specification of shared programs (used for C55).
-/
namespace Trees
set_option linter.unusedSimpArgs false
set_option linter.unusedVariables false
set_option linter.unusedSectionVars false
variable {α : Type}
open RTree

namespace Ledger
section
variable (a : α)

/-- Occurrences in shared trees. -/
noncomputable def cs (F : List (RTree (Nat × α))) : Nat := cn a ((preL F).map Prod.snd)

@[simp] theorem cs_append (F H : List (RTree (Nat × α))) : cs a (F ++ H) = cs a F + cs a H := by simp [cs]
@[simp] theorem cs_nil : cs a [] = 0 := rfl
theorem cs_one (t : RTree (Nat × α)) : cs a [t] = cn a (t.pre.map Prod.snd) := by simp [cs]
theorem cs_perm {F H : List (RTree (Nat × α))} {X Y : List (Nat × α)} (h : (preL F ++ X).Perm (preL H ++ Y)) :
    cs a F + cn a (X.map Prod.snd) = cs a H + cn a (Y.map Prod.snd) := by
  have := cn_perm a (h.map Prod.snd)
  simpa [cs] using this

theorem pre_plain (t : RTree (Nat × α)) : t.pre.map Prod.snd = t.plain.pre := (pre_map' Prod.snd t).symm
theorem cs_tree (t : RTree (Nat × α)) : cs a [t] = ct a t.plain := by rw [cs_one, pre_plain, ct_pre]
theorem cs_label (n : Nat) (t : RTree α) : cs a [label n t] = ct a t := by rw [cs_tree, label_plain]
theorem cs_labelL (n : Nat) (ts : List (RTree α)) : cs a (labelL n ts) = cl a ts := by
  rw [cl_pre, cs, ← preL_map' Prod.snd, labelL_plain]
end

/-- The balance of a call. -/
def SBal (s : SStore α) (B T : List α) (s' : SStore α) : Prop :=
  ∀ a, ch a s'.excl + cs a s'.roots + cn a s'.excl.dropped + cn a T = ch a s.excl + cs a s.roots + cn a s.excl.dropped + cn a B

def SBalO (s : SStore α) (B T : List α) : Outcome (SStore α) α → Prop
  | .ok s' _ => SBal s B T s'
  | .panic s' => SBal s B T s'
  | _ => True

theorem SBal.same {s : SStore α} : SBal s [] [] s := fun _ => rfl

section
variable {s : SStore α} {B T : List α}

theorem SBalO.onRc {k : Var} {f : Nat → RTree (Nat × α) → Outcome (SStore α) α}
    (h : ∀ i t, s.refs k = some (.rc i) → s.node? i = some t → SBalO s B T (f i t)) : SBalO s B T (s.onRc k f) := by
  simp only [SStore.onRc]
  split
  · split
    · exact h _ _ (by assumption) (by assumption)
    · trivial
  · trivial

theorem SBalO.reads {k : Var} {f : Nat → RTree (Nat × α) → Outcome (SStore α) α} 
    (h : ∀ i t, s.refs k = some (.rc i) → s.node? i = some t → SBalO s [] [] (f i t)) : SBalO s [] [] (s.reads k f) := by
  refine SBalO.onRc fun i t h1 h2 => ?_
  split
  · exact SBal.same
  · exact h i t h1 h2

theorem SBalO.writes {k : Var} {f : Nat → RTree (Nat × α) → Outcome (SStore α) α} 
    (h : ∀ i t, s.refs k = some (.rc i) → s.node? i = some t → SBalO s [] [] (f i t)) : SBalO s [] [] (s.writes k f) := by
  refine SBalO.onRc fun i t h1 h2 => ?_
  split
  · exact SBal.same
  · exact h i t h1 h2

/-- The balance of a call that brings in something only if it returns. -/
def SBalX (s : SStore α) (B : List α) (o : Outcome (SStore α) α) : Prop := SBalO s (if o.returned then B else []) [] o

theorem SBalX.onRc {k : Var} {f : Nat → RTree (Nat × α) → Outcome (SStore α) α}
    (h : ∀ i t, s.refs k = some (.rc i) → s.node? i = some t → SBalX s B (f i t)) : SBalX s B (s.onRc k f) := by
  simp only [SStore.onRc]
  split
  · split
    · exact h _ _ (by assumption) (by assumption)
    · trivial
  · trivial

theorem node_spec {i : Nat} {t : RTree (Nat × α)} (h : s.node? i = some t) : t ∈ subsL s.roots ∧ t.data.1 = i := by
  simp only [SStore.node?] at h
  exact ⟨List.mem_of_find?_eq_some h, by simpa using List.find?_some h⟩

variable (hfr : ∀ z, s.excl.fresh ≤ z → s.excl.vars z = none)
include hfr

theorem ch_next (a : α) (x : Store α) (h : x.vars x.fresh = none) : ch a { x with fresh := x.fresh + 1 } = ch a x := by
  simp only [ch, Store.held, cn_flatMap_range, h]
  simp

theorem ch_bindRef (a : α) (r : SRef) : ch a (s.bindRef r).excl = ch a s.excl := ch_next hfr a _ (hfr _ (Nat.le_refl _))

theorem SBal.bindRef (r : SRef) : SBal s [] [] (s.bindRef r) := by
  intro a
  rw [ch_bindRef hfr]; rfl

theorem SBalO.retRc (o : Option Nat) : SBalO s [] [] (s.retRc o) := by
  cases o with
  | none => exact SBal.same
  | some i => exact SBal.bindRef hfr _

theorem var_lt {x : Var} {v : Val α} (h : s.excl.vars x = some v) : x < s.excl.fresh := by
  rcases Nat.lt_or_ge x s.excl.fresh with h' | h'
  · exact h'
  · rw [hfr x h'] at h; simp at h

/-- An argument is moved into the shared trees, or dropped. -/
theorem SBalO.consumes {k y : Var} {v : Val α} (hy : s.excl.vars y = some v) {f : Nat → Option (List (RTree (Nat × α)))}
    (h : ∀ i t F, s.node? i = some t → f i = some F → ∀ a, cs a F = cs a s.roots + cv a v) : SBalO s [] [] (s.consumes k y v f) := by
  have hl := var_lt hfr hy
  have hd : SBal s [] [] { s with excl := (s.excl.set y none).drop v.post } := by
    intro a
    have h1 := ch_set a s.excl y none hl
    rw [hy] at h1
    simp only [co_some, co_none] at h1
    have e : cv a v = cn a v.post := rfl
    show ch a (s.excl.set y none) + cs a s.roots + cn a (s.excl.dropped ++ v.post) + cn a [] = ch a s.excl + cs a s.roots + cn a s.excl.dropped + cn a []
    rw [cn_append, cn_nil]
    omega
  refine SBalO.onRc fun i t h1 h2 => ?_
  split
  · exact hd
  · split
    · rename_i F hF
      intro a
      have h1 := ch_set a s.excl y none hl
      rw [hy] at h1
      have h3 := h i t F h2 hF a
      simp only [co_some, co_none] at h1
      have e : (s.excl.set y none).dropped = s.excl.dropped := rfl
      simp only [e, h3, cn_nil]
      omega
    · exact hd

theorem SBalO.withTree {k y : Var} {f : RTree (Nat × α) → Nat → Option (List (RTree (Nat × α)))}
    (h : ∀ u i t F, s.node? i = some t → f u i = some F → ∀ a, cs a F = cs a s.roots + cs a [u]) : SBalO s [] [] (s.withTree k y f) := by
  simp only [SStore.withTree]
  split
  · rename_i t ht
    refine SBalO.consumes hfr ht fun i u F h1 h2 a => ?_
    rw [h _ i u F h1 h2 a, cs_label]; rfl
  · trivial

theorem SBalO.withForest {k y : Var} {f : List (RTree (Nat × α)) → Nat → Option (List (RTree (Nat × α)))}
    (h : ∀ us i t F, s.node? i = some t → f us i = some F → ∀ a, cs a F = cs a s.roots + cs a us) : SBalO s [] [] (s.withForest k y f) := by
  simp only [SStore.withForest]
  split
  · rename_i t ht
    refine SBalO.consumes hfr ht fun i u F h1 h2 a => ?_
    rw [h _ i u F h1 h2 a, cs_labelL]; rfl
  · trivial

end

section
variable {s : SStore α} (hfr : ∀ z, s.excl.fresh ≤ z → s.excl.vars z = none) (hn : (idsL s.roots).Nodup)
include hn

/-- Trees are put among the children of a node. -/
theorem cs_mod_add {i : Nat} {t : RTree (Nat × α)} (h : s.node? i = some t) {f : List (RTree (Nat × α)) → List (RTree (Nat × α))} {us : List (RTree (Nat × α))}
    (hf : (preL (f t.kids)).Perm (preL t.kids ++ preL us)) (a : α) : cs a (modAtL i f s.roots) = cs a s.roots + cs a us := by
  obtain ⟨h1, h2⟩ := node_spec h
  have := cs_perm a (modAtL_pre (X := []) (Y := preL us) hn h1 h2 (by simpa using hf))
  simpa [cs] using this

/-- A child is taken out. -/
theorem cs_mod_sub {i : Nat} {t : RTree (Nat × α)} (h : s.node? i = some t) {f : List (RTree (Nat × α)) → List (RTree (Nat × α))} {c : RTree (Nat × α)}
    (hf : (preL (f t.kids) ++ c.pre).Perm (preL t.kids)) (a : α) : cs a (modAtL i f s.roots) + cs a [c] = cs a s.roots := by
  obtain ⟨h1, h2⟩ := node_spec h
  have := cs_perm a (modAtL_pre (X := c.pre) (Y := []) hn h1 h2 (by simpa using hf))
  simpa [cs] using this

theorem cs_sib_add {i : Nat} {t : RTree (Nat × α)} (h : s.node? i = some t) {f : RTree (Nat × α) → List (RTree (Nat × α))} {u : RTree (Nat × α)}
    (hf : (preL (f t)).Perm (t.pre ++ u.pre)) (a : α) : cs a (sibAtL i f s.roots) = cs a s.roots + cs a [u] := by
  obtain ⟨h1, h2⟩ := node_spec h
  have := cs_perm a (sibAtL_pre (X := []) (Y := u.pre) hn h1 h2 (by simpa using hf))
  simpa [cs] using this

theorem cs_sib_sub {i : Nat} {t : RTree (Nat × α)} (h : s.node? i = some t) (a : α) : cs a (sibAtL i (fun _ => []) s.roots) + cs a [t] = cs a s.roots := by
  obtain ⟨h1, h2⟩ := node_spec h
  have := cs_perm a (sibAtL_pre (f := fun _ => []) (X := t.pre) (Y := []) hn h1 h2 (by simp))
  simpa [cs] using this

theorem cs_set {i : Nat} {t : RTree (Nat × α)} (h : s.node? i = some t) (d : α) (a : α) :
    cs a (setAtL i d s.roots) + cn a [t.data.2] = cs a s.roots + cn a [d] := by
  obtain ⟨h1, h2⟩ := node_spec h
  have := cs_perm a (setAtL_pre (d := d) hn h1 h2)
  simpa using this

/-- The root of node `i` is replaced. -/
theorem cs_root : ∀ {F : List (RTree (Nat × α))} {t : RTree (Nat × α)} (g : RTree (Nat × α) → List (RTree (Nat × α))), (idsL F).Nodup → t ∈ F → ∀ a,
    cs a (F.flatMap fun u => if u.data.1 = t.data.1 then g u else [u]) + cs a [t] = cs a F + cs a (g t)
  | [], t, g, _, ht, a => by simp at ht
  | u :: F, t, g, hF, ht, a => by
    have hF' := hF
    rw [idsL_cons, List.nodup_append] at hF
    simp only [List.flatMap_cons, cs_append]
    have e : cs a (u :: F) = cs a [u] + cs a F := cs_append a [u] F
    rw [e]
    have none : ∀ (H : List (RTree (Nat × α))), t.data.1 ∉ idsL H → (H.flatMap fun u => if u.data.1 = t.data.1 then g u else [u]) = H := by
      intro H
      induction H with
      | nil => intro _; rfl
      | cons v H ih =>
        intro h
        rw [idsL_cons, List.mem_append, not_or] at h
        rw [List.flatMap_cons, ih h.2, if_neg (fun e => h.1 (by rw [← e, ids_kids]; exact List.mem_cons_self ..))]; rfl
    by_cases hu : u.data.1 = t.data.1
    · have : t = u := by
        refine sub_unique hF' (root_mem_subsL ht) (root_mem_subsL (List.mem_cons_self ..)) hu.symm
      subst this
      rw [if_pos rfl, none F (fun h => hF.2.2 _ (by rw [ids_kids]; exact List.mem_cons_self ..) _ h rfl)]
      omega
    · rw [if_neg hu]
      have ht' : t ∈ F := by
        rcases List.mem_cons.mp ht with e | h
        · exact absurd (by rw [e]) hu
        · exact h
      have := cs_root g hF.2.1 ht' a
      omega

include hfr

/-- Every call of the specification balances. -/
theorem sspec_bal (op : ROp α) : SBalO s (bringsS s.excl (fun k => (s.look k).map RTree.plain) (sstep s op).returned op) (takesS s.excl op) (sstep s op) := by
  have hread : ∀ {k : Var} {o : Nat → RTree (Nat × α) → Out α}, SBalO s [] [] (s.reads k fun i t => .ok s (o i t)) := fun {k o} => SBalO.reads fun i t _ _ => SBal.same
  have hret : ∀ {k : Var} {o : Nat → RTree (Nat × α) → Option Nat}, SBalO s [] [] (s.reads k fun i t => s.retRc (o i t)) := fun {k o} => SBalO.reads fun i t _ _ => SBalO.retRc hfr _
  cases op with
  | excl op =>
    have h := spec_bal hfr op
    simp only [sstep, bringsS, takesS]
    cases hs : specStep s.excl op <;> rw [hs] at h
    · intro a; have := h a; simp only; omega
    · intro a; have := h a; simp only; omega
    · trivial
    · trivial
  | fromTree x =>
    simp only [sstep, bringsS, takesS]
    split
    · rename_i t ht
      have hl := var_lt hfr ht
      intro a
      have h1 := ch_set a s.excl x none hl
      rw [ht] at h1
      simp only [co_some, co_none, cv_tree] at h1
      have e : ch a ({ ({ s with excl := s.excl.set x none } : SStore α).bindRef (.rc s.next) with
          roots := s.roots ++ [t.label s.next], next := s.next + t.count } : SStore α).excl = ch a (s.excl.set x none) :=
        ch_bindRef (s := { s with excl := s.excl.set x none }) (fun z hz => by
          simp only [Store.set] at hz ⊢
          split
          · rfl
          · exact hfr z hz) a (.rc s.next)
      rw [e]
      simp only [cs_append, cs_label, cn_nil, SStore.bindRef, Store.set] at *
      omega
    · trivial
  | clone k => exact SBalO.onRc fun i t _ _ => SBal.bindRef hfr _
  | drop k =>
    simp only [sstep, bringsS, takesS]
    split
    · split
      · trivial
      · refine SBalO.onRc fun i t h1 h2 => ?_
        obtain ⟨g1, g2⟩ := node_spec h2
        simp only [SStore.release]
        split
        · rename_i hr
          simp only [SStore.isRoot, List.any_eq_true, decide_eq_true_eq] at hr
          obtain ⟨r, hr1, hr2⟩ := hr
          have : t = r := sub_unique hn g1 (root_mem_subsL hr1) (g2.trans hr2.symm)
          subst this
          intro a
          have h3 := cs_root hn (fun u => u.survivors (s.heldElse k)) hn hr1 a
          have h4 := cn_perm a ((survivors_perm (s.heldElse k) t).map Prod.snd)
          rw [List.map_append, cn_append] at h4
          have e5 : cs a [t] = cn a (t.pre.map Prod.snd) := cs_one a t
          have e6 : cs a (t.survivors (s.heldElse k)) = cn a ((preL (t.survivors (s.heldElse k))).map Prod.snd) := rfl
          show ch a s.excl + cs a (s.roots.flatMap fun u => if u.data.1 = i then u.survivors (s.heldElse k) else [u]) +
            cn a (s.excl.dropped ++ (t.released (s.heldElse k)).map Prod.snd) + cn a [] = ch a s.excl + cs a s.roots + cn a s.excl.dropped + cn a []
          rw [cn_append, cn_nil, ← g2]
          omega
        · exact SBal.same
    · exact SBal.same
    · trivial
  | isRoot k => exact hread
  | data k => exact hread
  | degree k => exact hread
  | nodeCount k => exact hread
  | hasNoChild k => exact hread
  | front k => exact hret
  | back k => exact hret
  | parent k => exact hret
  | pushFront k y =>
    simp only [sstep, bringsS, takesS]
    refine SBalO.withTree hfr fun u i t F h1 h2 a => ?_
    cases h2
    exact cs_mod_add hn h1 (us := [u]) (by simpa using List.perm_append_comm) a
  | pushBack k y =>
    simp only [sstep, bringsS, takesS]
    refine SBalO.withTree hfr fun u i t F h1 h2 a => ?_
    cases h2
    exact cs_mod_add hn h1 (us := [u]) (by simp) a
  | prepend k y =>
    simp only [sstep, bringsS, takesS]
    refine SBalO.withForest hfr fun us i t F h1 h2 a => ?_
    cases h2
    exact cs_mod_add hn h1 (us := us) (by simpa using List.perm_append_comm) a
  | append k y =>
    simp only [sstep, bringsS, takesS]
    refine SBalO.withForest hfr fun us i t F h1 h2 a => ?_
    cases h2
    exact cs_mod_add hn h1 (us := us) (by simp) a
  | insertPrevSib k y =>
    simp only [sstep, bringsS, takesS]
    refine SBalO.withTree hfr fun u i t F h1 h2 a => ?_
    split at h2
    · simp at h2
    · cases h2
      exact cs_sib_add hn h1 (by simpa using List.perm_append_comm) a
  | insertNextSib k y =>
    simp only [sstep, bringsS, takesS]
    refine SBalO.withTree hfr fun u i t F h1 h2 a => ?_
    split at h2
    · simp at h2
    · cases h2
      exact cs_sib_add hn h1 (by simp) a
  | popFront k =>
    refine SBalO.writes fun i t h1 h2 => ?_
    split
    · exact SBal.same
    · rename_i c hc
      intro a
      have h3 := cs_mod_sub hn h2 (f := List.tail) (c := c) (by
        cases hk : t.kids with
        | nil => rw [hk] at hc; simp at hc
        | cons x xs =>
          rw [hk] at hc; simp at hc; subst hc
          simpa using List.perm_append_comm) a
      have e := ch_bindRef (s := { s with roots := modAtL i List.tail s.roots ++ [c] }) hfr a (.rc c.data.1)
      simp only [SStore.bindRef, cs_append] at e ⊢
      rw [e]; omega
  | popBack k =>
    refine SBalO.writes fun i t h1 h2 => ?_
    split
    · exact SBal.same
    · rename_i c hc
      intro a
      have h3 := cs_mod_sub hn h2 (f := List.dropLast) (c := c) (by
        have := List.dropLast_append_getLast? _ hc
        conv => rhs; rw [← this]
        simp) a
      have e := ch_bindRef (s := { s with roots := modAtL i List.dropLast s.roots ++ [c] }) hfr a (.rc c.data.1)
      simp only [SStore.bindRef, cs_append] at e ⊢
      rw [e]; omega
  | detach k =>
    refine SBalO.writes fun i t h1 h2 => ?_
    split
    · exact SBal.same
    · intro a
      have h3 := cs_sib_sub hn h2 a
      simp only [cs_append]; omega
  | setData k d =>
    show SBalX s [d] _
    refine SBalX.onRc fun i t _ ht => ?_
    split
    · exact SBal.same
    · intro a
      have h3 := cs_set hn ht d a
      show ch a s.excl + cs a (setAtL _ d s.roots) + cn a (s.excl.dropped ++ [t.data.2]) + cn a [] = ch a s.excl + cs a s.roots + cn a s.excl.dropped + cn a [d]
      rw [cn_append, cn_nil]; omega
  | borrow k => exact SBalO.reads fun i t _ _ => SBal.bindRef hfr _
  | borrowMut k => exact SBalO.writes fun i t _ _ => SBal.bindRef hfr _
  | guardRead g =>
    simp only [sstep, bringsS, takesS]
    split
    · exact SBalO.onRc fun i t _ _ => SBal.same
    · trivial
  | guardWrite g d =>
    show SBalX s [d] _
    simp only [sstep]
    split
    · refine SBalX.onRc fun i t _ ht => ?_
      intro a
      have h3 := cs_set hn ht d a
      show ch a s.excl + cs a (setAtL _ d s.roots) + cn a (s.excl.dropped ++ [t.data.2]) + cn a [] = ch a s.excl + cs a s.roots + cn a s.excl.dropped + cn a [d]
      rw [cn_append, cn_nil]; omega
    · trivial
  | iterRc k => exact SBalO.reads fun i t _ _ => SBal.bindRef hfr _
  | iterNext i =>
    simp only [sstep, bringsS, takesS]
    split
    · exact SBal.same
    · exact SBal.same
    · split
      · trivial
      · exact fun a => SBal.bindRef (s := s.setRef i (some (.iter (s.nextSib _) _))) hfr (.rc _) a
    · trivial
  | iterClone i =>
    simp only [sstep, bringsS, takesS]
    split
    · exact SBal.bindRef hfr _
    · trivial
  | iterLen i =>
    simp only [sstep, bringsS, takesS]
    split
    · exact SBal.same
    · trivial
  | downgrade k => exact SBalO.onRc fun i t _ _ => SBal.bindRef hfr _
  | upgrade w =>
    simp only [sstep, bringsS, takesS]
    split
    · exact SBalO.retRc hfr _
    · trivial
  | deepClone k f =>
    show SBalX s (madeFrom (((s.look k).map RTree.plain).map ([·])) (countOf (((s.look k).map RTree.plain).map ([·]))) f) _
    refine SBalX.onRc fun i t hi ht => ?_
    have e : s.look k = some t := by simp only [SStore.look, hi, ht]
    split
    · exact SBal.same
    · intro a
      rw [e]
      show ch a (s.excl.bind (.tree (t.plain.updLevel f))) + cs a s.roots + cn a s.excl.dropped + cn a [] =
        ch a s.excl + cs a s.roots + cn a s.excl.dropped + cn a (madeFrom (some [t.plain]) (countOf (some [t.plain])) f)
      rw [madeFrom_all, ch_bind, cv_tree, cl_upd, cn_nil]; omega
  | intoTree k =>
    refine SBalO.onRc fun i t h1 h2 => ?_
    obtain ⟨g1, g2⟩ := node_spec h2
    split
    · trivial
    · split
      · exact SBal.same
      · split
        · trivial
        · rename_i hr _
          simp only [Bool.not_eq_true, Bool.not_eq_false', SStore.isRoot, List.any_eq_true, decide_eq_true_eq] at hr
          obtain ⟨r, hr1, hr2⟩ := hr
          have : t = r := sub_unique hn g1 (root_mem_subsL hr1) (g2.trans hr2.symm)
          subst this
          intro a
          have h3 := cs_root hn (fun _ => []) hn hr1 a
          have e : ∀ F : List (RTree (Nat × α)), F.filter (fun u => u.data.1 ≠ i) = F.flatMap fun u => if u.data.1 = t.data.1 then [] else [u] := by
            intro F
            rw [g2]
            induction F with
            | nil => rfl
            | cons u F ih =>
              rw [List.filter_cons, List.flatMap_cons, ih]
              by_cases h : u.data.1 = i <;> simp [h]
          have h4 := ch_bind a s.excl (.tree t.plain)
          show ch a (s.excl.bind (.tree t.plain)) + cs a (s.roots.filter fun u => u.data.1 ≠ i) + cn a s.excl.dropped + cn a [] = ch a s.excl + cs a s.roots + cn a s.excl.dropped + cn a []
          rw [e, h4, cv_tree, ← cs_tree]
          simp only [cs_nil] at h3
          omega

end
end Ledger
end Trees
