import Verif.Proof.SharedCalls2
/-
What the specification allows is safe.
-/
namespace Trees
set_option linter.unusedSimpArgs false
set_option linter.unusedVariables false
variable {α : Type}
open RTree
section
variable {φ : Nat → Addr} {m : RMachine α} {s : SStore α} (S : SSim φ m s)
include S

theorem SSim.safe_next (i : Var) (hb : sstep s (.iterNext i) ≠ .bad) : Safe m (.iterNext i) := by
  rintro c' cs ⟨it, g1, g2, g3⟩
  have hrel := S.refs i
  rw [g1] at hrel
  cases hq : s.refs i with
  | none => rw [hq] at hrel; exact hrel.elim
  | some q =>
    rw [hq] at hrel
    cases q with
    | iter c n =>
      obtain ⟨⟨cu, n'⟩, h1, h2, h3⟩ := S.mref_iter hq
      rw [g1] at h1
      cases h1
      simp only at h2 h3 g2 g3
      have g4 := g3 (by simp)
      subst h2
      have h4 := h3 (by rw [g2]; simp)
      rw [g4] at h4
      simp only [List.head?_cons] at h4
      cases c with
      | none => simp at h4
      | some c =>
        simp only [Option.map_some, Option.some.injEq] at h4
        subst h4
        refine S.shown.mpr ⟨c, ?_, rfl⟩
        by_contra hc
        apply hb
        have hn : n' = cs.length + 1 := g2
        subst hn
        simp only [sstep, hq, SSim.node_none.mpr hc]
        rfl
    | rc i => exact hrel.elim
    | weak i => exact hrel.elim
    | guard k w => exact hrel.elim

theorem SSim.safe_intoTree (k : Var) (hb : sstep s (.intoTree k) ≠ .bad) : Safe m (.intoTree k) ∨ rstep m (.intoTree k) = .rejected := by
  by_cases hg : m.guarded k = true
  · right
    simp only [rstep, RMachine.onRc]
    split
    · rw [if_pos hg]
    · rfl
  left
  intro t0 h3
  obtain ⟨u, h1, h2, rfl⟩ := S.look_rc h3
  have hb' : (if s.busy k then Outcome.rejected
      else if !s.isRoot u.data.1 then .panic (s.setRef k none)
      else if s.aliased k u then .bad
      else .ok { s.setRef k none with roots := s.roots.filter (fun u' => u'.data.1 ≠ u.data.1), excl := s.excl.bind (.tree u.plain) } (.var s.excl.fresh)) ≠ (.bad : Outcome (SStore α) α) := by
    rcases S.cases k with ⟨u', g1, g2, g3, g4⟩ | ⟨g1, -⟩
    · rw [h2] at g2
      simp only [Option.some.injEq, SRef.rc.injEq] at g2
      have := sub_unique S.idsNodup h1 g1 g2
      subst this
      have hb2 := hb
      simp only [sstep] at hb2
      rw [g4] at hb2
      exact hb2
    · rw [g1] at h3; simp at h3
  have hbz : ¬ s.busy k = true := by rw [S.busy_eq]; exact hg
  rw [if_neg hbz] at hb'
  by_cases hroot : s.isRoot u.data.1 = true
  · right
    rw [if_neg (by simp [hroot])] at hb'
    have hal : s.aliased k u = false := by
      cases e : s.aliased k u with
      | false => rfl
      | true => rw [e] at hb'; simp at hb'
    have hal' : ∀ j, ¬ (match s.refs j with
        | some (.rc x) => decide (j ≠ k) && decide (x ∈ u.ids)
        | some (.weak x) => decide (x ∈ u.ids)
        | _ => false) = true := by
      intro j hj
      have : s.aliased k u = true := by
        refine (S.anyVar_iff ?_).mpr ⟨j, hj⟩
        intro j' hj' hn
        rw [hn] at hj'; simp at hj'
      rw [this] at hal; simp at hal
    refine ⟨?_, ?_⟩
    · intro j b hj hn hb2
      simp only [RMachine.nodeOf, Option.map_eq_some_iff] at hn
      obtain ⟨t', h4, rfl⟩ := hn
      obtain ⟨v, h5, h6, rfl⟩ := S.look_rc h4
      rw [relab_ids, relab_data, List.mem_map] at hb2
      obtain ⟨x, hx, hxe⟩ := hb2
      have := S.inj (subsL_ids h1 x hx) (mem_idsL_iff.mpr ⟨v, h5, rfl⟩) hxe
      subst this
      exact hal' j (by rw [h6]; simp [hj, hx])
    · intro w c hw hc
      have hrw := S.refs w
      rw [hw] at hrw
      cases hq : s.refs w with
      | none => rw [hq] at hrw; exact hrw
      | some q =>
        rw [hq] at hrw
        cases q with
        | weak i =>
          have : c = φ i := by simpa [RefRel] using hrw
          subst this
          rw [relab_ids, List.mem_map] at hc
          obtain ⟨j, hj, hje⟩ := hc
          have hjr := subsL_ids h1 j hj
          by_cases hi : i ∈ idsL s.roots
          · have := S.inj hjr hi hje
            subst this
            exact hal' w (by rw [hq]; simp [hj])
          · exact S.gone w i hq hi j hjr hje
        | rc i => exact hrw
        | guard k w => exact hrw
        | iter c n => exact hrw
  · left
    rw [relab_data]
    exact (S.hasParent h1).mpr (by simpa using hroot)

theorem SSim.safe (op : ROp α) (hl : BoxedOnly m op) (hb : sstep s op ≠ .bad) : Safe m op ∨ rstep m op = .rejected := by
  cases op with
  | iterNext i => exact .inl (S.safe_next i hb)
  | intoTree k => exact S.safe_intoTree k hb
  | clone k => exact .inl hl
  | downgrade k => exact .inl hl
  | _ => exact .inl trivial
end

end Trees
