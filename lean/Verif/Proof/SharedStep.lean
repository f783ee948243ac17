import Verif.Proof.SharedRemove
import Verif.Props.SharedDefects
/-
One call: machine and specification do the same.
-/
namespace Trees
set_option linter.unusedSimpArgs false
set_option linter.unusedVariables false
variable {α : Type}
open RTree

/-- The calls whose counting is broken for handles into a block (C35, C36). -/
def BoxedOnly (m : RMachine α) : ROp α → Prop
  | .clone k => m.Scattered k
  | .downgrade k => m.Scattered k
  | _ => True

/-- The same outcome, the same result, and states that correspond. -/
def Match : Outcome (RMachine α) α → Outcome (SStore α) α → Prop
  | .ok m o, .ok s o' => o = o' ∧ ∃ φ, SSim φ m s
  | .panic m, .panic s => ∃ φ, SSim φ m s
  | .rejected, .rejected => True
  | _, _ => False

section
variable {φ : Nat → Addr} {m : RMachine α} {s : SStore α}

theorem onRc_none {f : RcRef → Outcome (RMachine α) α} (hm : SI m) {k : Var} (h : m.look k = none) : m.onRc k f = .rejected := by
  simp only [RMachine.onRc]
  split
  · rename_i r hr
    obtain ⟨t, ht⟩ := si_ref hm hr
    rw [h] at ht; simp at ht
  · rfl

theorem look_none_iff (hm : SI m) {k : Var} : m.look k = none ↔ ∀ r, m.refs k ≠ some (.rc r) := by
  constructor
  · intro h r hr
    obtain ⟨t, ht⟩ := si_ref hm hr
    rw [h] at ht; simp at ht
  · intro h
    simp only [RMachine.look]

variable (S : SSim φ m s)
include S

namespace SSim

/-- What a variable holds. -/
theorem cases (k : Var) :
    (∃ u ∈ subsL s.roots, s.refs k = some (.rc u.data.1) ∧ m.look k = some (relab φ u) ∧ ∀ f, s.onRc k f = f u.data.1 u) ∨
      (m.look k = none ∧ ∀ f, s.onRc k f = .rejected) := by
  cases h : s.refs k with
  | none =>
    right
    refine ⟨?_, fun f => by simp only [SStore.onRc, h]⟩
    rw [look_none_iff S.reach.si, S.ref_none h]; simp
  | some r =>
    cases r with
    | rc i =>
      obtain ⟨u, h1, h2, h3, h4⟩ := S.handle h
      subst h3
      exact .inl ⟨u, h2, rfl, h4, fun f => by simp only [SStore.onRc, h, h1]⟩
    | weak i => exact .inr ⟨by rw [look_none_iff S.reach.si, S.mref_weak h]; simp, fun f => by simp only [SStore.onRc, h]⟩
    | guard j w =>
      obtain ⟨a, ha⟩ := S.mref_guard h
      exact .inr ⟨by rw [look_none_iff S.reach.si, ha]; simp, fun f => by simp only [SStore.onRc, h]⟩
    | iter c n =>
      refine .inr ⟨?_, fun f => by simp only [SStore.onRc, h]⟩
      rw [look_none_iff S.reach.si]
      intro r hr
      obtain ⟨i, hi⟩ := S.ref_rc hr
      rw [h] at hi; simp at hi

theorem onRcM {op : ROp α} {k : Var} {f : Nat → RTree (Nat × α) → Outcome (SStore α) α} (hrej : m.look k = none → rstep m op = .rejected)
    (hgo : ∀ u ∈ subsL s.roots, s.refs k = some (.rc u.data.1) → m.look k = some (relab φ u) → Match (rstep m op) (f u.data.1 u)) :
    Match (rstep m op) (s.onRc k f) := by
  rcases S.cases k with ⟨u, h1, h2, h3, h4⟩ | ⟨h1, h2⟩
  · rw [h4]; exact hgo u h1 h2 h3
  · rw [h2, hrej h1]; trivial

/-- A reading call. -/
theorem readsM {op : ROp α} {k : Var} {f : Nat → RTree (Nat × α) → Outcome (SStore α) α} (hrej : m.look k = none → rstep m op = .rejected)
    (hconf : ∀ t, m.look k = some t → m.Guarded t.data.1 true → rstep m op = .panic m)
    (hgo : ∀ u ∈ subsL s.roots, s.refs k = some (.rc u.data.1) → m.look k = some (relab φ u) → ¬ m.Guarded (relab φ u).data.1 true → Match (rstep m op) (f u.data.1 u)) :
    Match (rstep m op) (s.reads k f) := by
  refine S.onRcM hrej fun u h1 h2 h3 => ?_
  by_cases hg : s.guarded u.data.1 true = true
  · rw [if_pos hg, hconf _ h3 (by rw [relab_data]; exact (S.guarded_iff h1).mp hg)]
    exact ⟨φ, S⟩
  · rw [if_neg hg]
    exact hgo u h1 h2 h3 (by rw [relab_data]; exact fun h => hg ((S.guarded_iff h1).mpr h))

theorem guards_iff {u : RTree (Nat × α)} (hu : u ∈ subsL s.roots) : (s.guarded u.data.1 true || s.guarded u.data.1 false) = true ↔ ∃ w, m.Guarded (φ u.data.1) w := by
  rw [Bool.or_eq_true, S.guarded_iff hu, S.guarded_iff hu]
  constructor
  · rintro (h | h)
    · exact ⟨_, h⟩
    · exact ⟨_, h⟩
  · rintro ⟨w, h⟩
    cases w
    · exact .inr h
    · exact .inl h

/-- A changing call. -/
theorem writesM {op : ROp α} {k : Var} {f : Nat → RTree (Nat × α) → Outcome (SStore α) α} (hrej : m.look k = none → rstep m op = .rejected)
    (hconf : ∀ t w, m.look k = some t → m.Guarded t.data.1 w → rstep m op = .panic m)
    (hgo : ∀ u ∈ subsL s.roots, s.refs k = some (.rc u.data.1) → m.look k = some (relab φ u) → (∀ w, ¬ m.Guarded (relab φ u).data.1 w) → Match (rstep m op) (f u.data.1 u)) :
    Match (rstep m op) (s.writes k f) := by
  refine S.onRcM hrej fun u h1 h2 h3 => ?_
  by_cases hg : (s.guarded u.data.1 true || s.guarded u.data.1 false) = true
  · obtain ⟨w, hw⟩ := (S.guards_iff h1).mp hg
    rw [if_pos hg, hconf _ w h3 (by rw [relab_data]; exact hw)]
    exact ⟨φ, S⟩
  · rw [if_neg hg]
    exact hgo u h1 h2 h3 (by rw [relab_data]; exact fun w h => hg ((S.guards_iff h1).mpr ⟨w, h⟩))

/-- A panic that drops the argument. -/
theorem argM {op : ROp α} (hsafe : Safe m op) {y : Var} {v : Val α} (hv : s.excl.vars y = some v) (h : ArgPanics m y (rstep m op)) :
    Match (rstep m op) (.panic { s with excl := (s.excl.set y none).drop v.post }) := by
  obtain ⟨m', v', e, h1, h2, h3, h4, h5⟩ := h
  rw [← S.excl, hv] at h4; cases h4
  have := S.exclOnly hsafe (.inr e) h2 h3 h5.symm
  rw [e]
  rw [← S.excl] at this
  exact ⟨φ, this⟩

/-- A call with an argument that is moved. -/
theorem consumesM {op : ROp α} (hsafe : Safe m op) {k y : Var} {v : Val α} (hv : s.excl.vars y = some v) {f : Nat → Option (List (RTree (Nat × α)))}
    (hrej : m.look k = none → rstep m op = .rejected) (hconf : ∀ a w, m.nodeOf k = some a → m.Guarded a w → ArgPanics m y (rstep m op))
    (hgo : ∀ u ∈ subsL s.roots, m.nodeOf k = some (φ u.data.1) → (∀ w, ¬ m.Guarded (φ u.data.1) w) →
      (∃ roots, f u.data.1 = some roots ∧ ∃ m' φ', rstep m op = .ok m' .unit ∧
        SSim φ' m' { s with excl := s.excl.set y none, roots, next := s.next + v.count }) ∨ (f u.data.1 = none ∧ ArgPanics m y (rstep m op))) :
    Match (rstep m op) (s.consumes k y v f) := by
  refine S.onRcM hrej fun u h1 h2 h3 => ?_
  have hn : m.nodeOf k = some (φ u.data.1) := by rw [look_node h3, relab_data]
  by_cases hg : (s.guarded u.data.1 true || s.guarded u.data.1 false) = true
  · obtain ⟨w, hw⟩ := (S.guards_iff h1).mp hg
    rw [if_pos hg]
    exact S.argM hsafe hv (hconf _ w hn hw)
  · rw [if_neg hg]
    rcases hgo u h1 hn (fun w h => hg ((S.guards_iff h1).mpr ⟨w, h⟩)) with ⟨roots, e, m', φ', h4, h5⟩ | ⟨e, h⟩
    · rw [e, h4]; exact ⟨rfl, φ', h5⟩
    · rw [e]; exact S.argM hsafe hv h

/-- A tree in a variable. -/
theorem treeCases (y : Var) : (∃ a t, m.env y = some (.tree a) ∧ m.lookTree y = some t ∧ s.excl.vars y = some (.tree t.plain)) ∨
    ((∀ a, m.env y ≠ some (.tree a)) ∧ ∀ t, s.excl.vars y ≠ some (.tree t)) := by
  by_cases h : ∃ a, m.env y = some (.tree a)
  · obtain ⟨a, h⟩ := h
    obtain ⟨G, K, T, I, B⟩ := S.reach.si
    have ho := I.hnd y _ h
    obtain ⟨t, ht⟩ := exists_lab I.inv I.kv ho.used ho.kind
    have hl := I.lookTree_iff.mpr ⟨a, h, ht⟩
    exact .inl ⟨a, t, h, hl, by rw [S.excl]; exact (si_lookTree S.reach.si hl).2.2⟩
  · refine .inr ⟨fun a ha => h ⟨a, ha⟩, fun t ht => ?_⟩
    rw [S.excl] at ht
    obtain ⟨u, hu, -⟩ := (c39_look_tree S.reach).mp ht
    simp only [RMachine.lookTree] at hu
    split at hu
    · rename_i r hr; exact h ⟨r, hr⟩
    · simp at hu

theorem forestCases (y : Var) : (∃ a ts, m.env y = some (.forest a) ∧ m.lookForest y = some ts ∧ s.excl.vars y = some (.forest (mapL Prod.snd ts))) ∨
    ((∀ a, m.env y ≠ some (.forest a)) ∧ ∀ ts, s.excl.vars y ≠ some (.forest ts)) := by
  by_cases h : ∃ a, m.env y = some (.forest a)
  · obtain ⟨a, h⟩ := h
    obtain ⟨G, K, T, I, B⟩ := S.reach.si
    have ho := I.hnd y _ h
    obtain ⟨t, ht⟩ := exists_labL I.inv I.kv ho.used
    have hl := I.lookForest_iff.mpr ⟨a, h, ht⟩
    exact .inl ⟨a, t, h, hl, by rw [S.excl]; exact (si_lookForest S.reach.si hl).2.2⟩
  · refine .inr ⟨fun a ha => h ⟨a, ha⟩, fun t ht => ?_⟩
    rw [S.excl] at ht
    obtain ⟨G, K, T, I, B⟩ := S.reach.si
    cases he : m.env y with
    | none =>
      have ht' : m.excl.view y = some (.forest t) := ht
      simp [Machine.view, RMachine.excl, he] at ht'
    | some hd =>
      obtain ⟨v, h1, h2⟩ := I.hden he
      have ht' : m.excl.view y = some (.forest t) := ht
      rw [h2] at ht'; cases ht'
      cases hd with
      | forest a => exact h ⟨a, he⟩
      | tree r => exact h1.elim
      | iter r => exact h1.elim

theorem withTreeM {op : ROp α} {k y : Var} {f : RTree (Nat × α) → Nat → Option (List (RTree (Nat × α)))}
    (hrej : (∀ a, m.env y ≠ some (.tree a)) → rstep m op = .rejected)
    (hgo : ∀ a t, m.env y = some (.tree a) → m.lookTree y = some t → t.ids.Nodup → (∀ b ∈ t.ids, ¬ m.Shown b) → s.excl.vars y = some (.tree t.plain) →
      Match (rstep m op) (s.consumes k y (.tree t.plain) (f (t.plain.label s.next)))) : Match (rstep m op) (s.withTree k y f) := by
  rcases S.treeCases y with ⟨a, t, h1, h2, h3⟩ | ⟨h1, h2⟩
  · obtain ⟨g1, g2, -⟩ := si_lookTree S.reach.si h2
    simp only [SStore.withTree, h3]
    exact hgo a t h1 h2 g1 g2 h3
  · rw [hrej h1]
    simp only [SStore.withTree]
    trivial

theorem withForestM {op : ROp α} {k y : Var} {f : List (RTree (Nat × α)) → Nat → Option (List (RTree (Nat × α)))}
    (hrej : (∀ a, m.env y ≠ some (.forest a)) → rstep m op = .rejected)
    (hgo : ∀ a ts, m.env y = some (.forest a) → m.lookForest y = some ts → (idsL ts).Nodup → (∀ b ∈ idsL ts, ¬ m.Shown b) → s.excl.vars y = some (.forest (mapL Prod.snd ts)) →
      Match (rstep m op) (s.consumes k y (.forest (mapL Prod.snd ts)) (f (labelL s.next (mapL Prod.snd ts))))) : Match (rstep m op) (s.withForest k y f) := by
  rcases S.forestCases y with ⟨a, t, h1, h2, h3⟩ | ⟨h1, h2⟩
  · obtain ⟨g1, g2, -⟩ := si_lookForest S.reach.si h2
    simp only [SStore.withForest, h3]
    exact hgo a t h1 h2 g1 g2 h3
  · rw [hrej h1]
    simp only [SStore.withForest]
    trivial

end SSim
end
end Trees
