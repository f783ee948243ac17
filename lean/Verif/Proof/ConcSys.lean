import Verif.Proof.ConcThread
/-
Several threads, each with values of its own and shared references to others: the whole system.
-/
namespace Trees
set_option linter.unusedSimpArgs false
set_option linter.unusedVariables false
variable {α β γ : Type}
namespace Fine
variable {A : Alloc} {S : Heap α} {n : Nat} {As : Fin n → Alloc}

/-- An access that succeeds in the whole and touches only the part. -/
theorem acc_down {a : Acc α} {Q V V1 : Heap α} {x : a.Ret} (hs : Sub Q V) (hc : Same3 Q V) (ok : Okay A V a) (e : a.run A V = .ok x V1)
    (h1 : ∀ b, a.node? = some b → Q.live b = true) (h2 : ∀ v, a.vec? = some v → ∃ nv, Q.vec v = some nv) : ∃ y Q1, a.run A Q = .ok y Q1 := by
  cases a with
  | ptr f b =>
    have l := h1 b rfl
    cases f <;> exact ⟨_, Q, by simp [Acc.run, Fld.get, Trees.getPrev, Trees.getNext, Trees.getHead, Trees.getTail, Trees.getUp, rd, l]; rfl⟩
  | size b => have l := h1 b rfl; exact ⟨_, Q, by simp [Acc.run, Trees.getSize, rd, l]; rfl⟩
  | data b => have l := h1 b rfl; exact ⟨_, Q, by simp [Acc.run, Trees.getData, rd, l]; rfl⟩
  | setPtr f b v =>
    have l := h1 b rfl
    cases f <;> exact ⟨(), _, by simp [Acc.run, Fld.set, Trees.setPrev, Trees.setNext, Trees.setHead, Trees.setTail, Trees.setUp, wr, l]; rfl⟩
  | setSize b v => have l := h1 b rfl; exact ⟨(), _, by simp [Acc.run, Trees.setSize, wr, l]; rfl⟩
  | setData b v => have l := h1 b rfl; exact ⟨(), _, by simp [Acc.run, Trees.setData, wr, l]; rfl⟩
  | make d =>
    have := okay_mono hs hc ok
    simp only [Okay] at this
    exact ⟨_, _, by simp only [Acc.run, makeNodeA]; exact if_pos this⟩
  | newVec m =>
    have := okay_mono hs hc ok
    simp only [Okay] at this
    exact ⟨_, _, by simp only [Acc.run, newVecA]; exact if_pos this⟩
  | rcDrop b =>
    have l := h1 b rfl
    simp only [Acc.run, Trees.rcDrop, hs.live b l, hs.count b l, if_true] at e
    simp only [Acc.run, Trees.rcDrop, l, if_true]
    split
    · exact ⟨_, _, rfl⟩
    · rename_i h3
      rw [if_neg h3] at e
      split
      · rename_i h4
        rw [if_pos h4] at e
        cases e
      · exact ⟨_, _, rfl⟩
  | vecNode v i =>
    obtain ⟨nv, h⟩ := h2 v rfl
    simp only [Acc.run, Trees.vecNode, hs.vec v nv h] at e
    simp only [Acc.run, Trees.vecNode, h]
    split
    · exact ⟨_, _, rfl⟩
    · rename_i h3
      rw [if_neg h3] at e
      cases e
  | getRef v => obtain ⟨nv, h⟩ := h2 v rfl; exact ⟨_, _, by simp only [Acc.run, h]; rfl⟩
  | setRef v m => obtain ⟨nv, h⟩ := h2 v rfl; exact ⟨_, _, by simp only [Acc.run, h]; rfl⟩
  | freeVec v => obtain ⟨nv, h⟩ := h2 v rfl; exact ⟨_, _, by simp only [Acc.run, h]; rfl⟩
  | logDrop d => exact ⟨_, _, rfl⟩
  | bound => exact ⟨_, _, rfl⟩

theorem Sub.union {Q S V G : Heap α} (h1 : Sub Q V) (h2 : Sub S V) (hl : ∀ a, V.live a = true → Q.live a = true ∨ S.live a = true)
    (hv : ∀ v nv, V.vec v = some nv → Q.vec v = some nv ∨ S.vec v = some nv) (g1 : Sub Q G) (g2 : Sub S G) : Sub V G := by
  refine Sub.mk9 (fun a l => ?_) (fun a l => ?_) fun v nv h => ?_
  · rcases hl a l with l | l
    · exact g1.live a l
    · exact g2.live a l
  · rcases hl a l with l | l
    · exact (h1.eq9 l).symm.trans (g1.eq9 l)
    · exact (h2.eq9 l).symm.trans (g2.eq9 l)
  · rcases hv v nv h with h | h
    · exact g1.vec v nv h
    · exact g2.vec v nv h

theorem Sub.trans {H G F : Heap α} (h : Sub H G) (g : Sub G F) : Sub H F :=
  Sub.mk9 (fun a l => g.live a (h.live a l)) (fun a l => (h.eq9 l).trans (g.eq9 (h.live a l))) fun v nv e => g.vec v nv (h.vec v nv e)

/-- `S`: what is shared; `Q i`: what thread `i` owns; `V i`: both. -/
structure MRel (As : Fin n → Alloc) (s : Sys n α β) (S : Heap α) (Q V : Fin n → Heap α) : Prop where
  vsub : ∀ i, Sub (V i) s.mem
  qsub : ∀ i, Sub (Q i) (V i)
  ssub : ∀ i, Sub S (V i)
  same : ∀ i, Same3 (V i) ((s.th i).view s.mem)
  qsame : ∀ i, Same3 (Q i) (V i)
  qs : ∀ i, Disj (Q i) S
  qq : ∀ i j, i ≠ j → Disj (Q i) (Q j)
  known : ∀ i, Known (As i) (V i)
  vlive : ∀ i a, (V i).live a = true → (Q i).live a = true ∨ S.live a = true
  vvec : ∀ i v nv, (V i).vec v = some nv → (Q i).vec v = some nv ∨ S.vec v = some nv
  live : ∀ a, s.mem.live a = true → S.live a = true ∨ ∃ i, (Q i).live a = true
  vec : ∀ v nv, s.mem.vec v = some nv → S.vec v = some nv ∨ ∃ i, (Q i).vec v = some nv

theorem free_out' {s : Sys n α β} {K : Heap α} {i : Fin n} {a : Acc α} (h : s.free As i a = true) (hs : Sub K s.mem)
    (hk : ∀ v nv, K.vec v = some nv → ∃ j w, w < (s.th j).nextVec ∧ (As j).vec w = v) : Out (As i) ((s.th i).view s.mem) K a := by
  have key : ∀ x, s.inUse As x = false → ¬ K.Here x := by
    intro x hx hh
    have : s.inUse As x = true := sys_inUse.mpr (by
      rcases hh with hh | ⟨v, nv, e, h1⟩
      · exact .inl (hs.live x hh)
      · obtain ⟨j, w, hw, rfl⟩ := hk v nv e
        exact .inr ⟨j, w, nv, hw, hs.vec _ nv e, h1⟩)
    rw [this] at hx; cases hx
  cases a with
  | make d =>
    simp only [Sys.free, Bool.not_eq_true'] at h
    exact key _ h
  | newVec cap =>
    simp only [Sys.free, Bool.and_eq_true, List.all_eq_true, List.mem_range, Bool.not_eq_true', Option.isNone_iff_eq_none] at h
    refine ⟨?_, fun k hk => key _ (h.2 k hk).2⟩
    cases e : K.vec ((As i).vec ((s.th i).view s.mem).nextVec) with
    | none => rfl
    | some nv => have := hs.vec _ nv e; exact absurd (this.symm.trans h.1) (by simp)
  | _ => trivial

/-- What a thread owns, of what it touches. -/
theorem MRel.own {s : Sys n α β} {Q V : Fin n → Heap α} (R : MRel As s S Q V) {i : Fin n} {a : Acc α} {x : a.Ret} {V1 : Heap α} (e : a.run (As i) (V i) = .ok x V1)
    (hs : Spare S a) (hw : a.reads = false) : (∀ b, a.node? = some b → (Q i).live b = true) ∧ ∀ v, a.vec? = some v → ∃ nv, (Q i).vec v = some nv := by
  rcases hs with h | ⟨h1, h2⟩
  · rw [h] at hw; cases hw
  · constructor
    · intro b hb
      rcases R.vlive i b (node_live e hb) with h | h
      · exact h
      · exact absurd (.inl h) (h1 b hb)
    · intro v hv
      obtain ⟨nv, h⟩ := vec_there e hv
      rcases R.vvec i v nv h with h | h
      · exact ⟨nv, h⟩
      · rw [h2 v hv] at h; cases h

theorem mrel_step {s s' : Sys n α β} {Q V : Fin n → Heap α} (R : MRel As s S Q V) (g : ∀ i, Good (As i) (V i, (s.th i).prog))
    (nw : ∀ i, NW S (As i) (s.th i).prog (V i)) {i : Fin n} (e : s.step As i = some s') : ∃ Q' V', MRel As s' S Q' V' ∧
      (∀ i, NW S (As i) (s'.th i).prog (V' i)) ∧
      ∀ j, (V' j, (s'.th j).prog) = if j = i then alone (As i) (V i, (s.th i).prog) else (V j, (s.th j).prog) := by
  have stay : ∀ p, (s.th i).prog = p → (∀ a k, p ≠ .acc a k) → s' = s → ∃ Q' V', MRel As s' S Q' V' ∧
      (∀ i, NW S (As i) (s'.th i).prog (V' i)) ∧
      ∀ j, (V' j, (s'.th j).prog) = if j = i then Fine.alone (As i) (V i, (s.th i).prog) else (V j, (s.th j).prog) := by
    rintro p hp hn rfl
    refine ⟨Q, V, R, nw, fun j => ?_⟩
    split
    · rename_i e; subst e
      rw [hp]
      cases p with
      | acc a k => exact absurd rfl (hn a k)
      | ret b => rfl
      | fail e => rfl
    · rfl
  simp only [Sys.step] at e
  cases hp : (s.th i).prog with
  | ret b => rw [hp] at e; exact hp ▸ stay _ hp (by intro a k h; cases h) (by simpa using e.symm)
  | fail x => rw [hp] at e; exact hp ▸ stay _ hp (by intro a k h; cases h) (by simpa using e.symm)
  | acc a k =>
    rw [hp] at e
    dsimp only at e
    split at e
    · rename_i fr
      have hok := free_okay fr
      have hS := (R.vsub i).view (s.th i)
      have gi := g i
      have ni := nw i
      rw [hp] at gi ni
      have hokV := okay_mono hS (R.same i) hok
      rcases gi.next with ⟨x, V1, er⟩ | ⟨H1, er⟩
      · obtain ⟨G1, eg, E⟩ := acc_part hS (R.same i) er hok
        rw [eg] at e
        simp only [Option.some.injEq] at e
        subst e
        have rest : ∀ Q', MRel As ⟨G1, Sys.set s.th i ⟨G1.nextAddr, G1.nextVec, G1.log, k x⟩⟩ S Q' (fun j => if j = i then V1 else V j) →
            ∃ Q' V', MRel As ⟨G1, Sys.set s.th i ⟨G1.nextAddr, G1.nextVec, G1.log, k x⟩⟩ S Q' V' ∧
            (∀ j, NW S (As j) (Sys.set s.th i ⟨G1.nextAddr, G1.nextVec, G1.log, k x⟩ j).prog (V' j)) ∧
            ∀ j, (V' j, (Sys.set s.th i ⟨G1.nextAddr, G1.nextVec, G1.log, k x⟩ j).prog) = if j = i then Fine.alone (As i) (V i, .acc a k) else (V j, (s.th j).prog) := by
          intro Q' R'
          refine ⟨Q', _, R', fun j => ?_, fun j => ?_⟩
          · dsimp only [Sys.set]; split
            · rename_i h1; subst h1; exact ni.2 x V1 er
            · exact nw j
          · dsimp only [Sys.set]; split
            · simp only [Fine.alone, er]
            · rfl
        have same' : ∀ j, Same3 (if j = i then V1 else V j) ((Sys.set s.th i ⟨G1.nextAddr, G1.nextVec, G1.log, k x⟩ j).view G1) := by
          intro j; dsimp only [Sys.set]; split
          · exact ⟨E.same.nextAddr, E.same.nextVec, E.same.log⟩
          · exact ⟨(R.same j).nextAddr, (R.same j).nextVec, (R.same j).log⟩
        have known' : ∀ j, Known (As j) (if j = i then V1 else V j) := by
          intro j; split
          · rename_i h1; subst h1; exact known_run (R.known j) er
          · exact R.known j
        by_cases hw : a.reads = true
        · -- a read: nothing changes
          have eV : V1 = V i := by
            rcases Acc.reads_same (A := As i) hw (V i) with ⟨y, h⟩ | ⟨y, h⟩ <;> rw [er] at h <;> cases h; rfl
          have eG : G1 = (s.th i).view s.mem := by
            rcases Acc.reads_same (A := As i) hw ((s.th i).view s.mem) with ⟨y, h⟩ | ⟨y, h⟩ <;> rw [eg] at h <;> cases h; rfl
          have eV' : ∀ j, (if j = i then V1 else V j) = V j := by
            intro j; split
            · rename_i h; rw [eV, h]
            · rfl
          refine rest Q ⟨fun j => ?_, fun j => ?_, fun j => ?_, same', fun j => ?_, R.qs, R.qq, known', fun j => ?_, fun j => ?_, ?_, ?_⟩
          · rw [eV' j, eG]; exact (R.vsub j).view _
          · rw [eV' j]; exact R.qsub j
          · rw [eV' j]; exact R.ssub j
          · rw [eV' j]; exact R.qsame j
          · rw [eV' j]; exact R.vlive j
          · rw [eV' j]; exact R.vvec j
          · rw [eG]; exact R.live
          · rw [eG]; exact R.vec
        · have hw : a.reads = false := by simpa using hw
          obtain ⟨o1, o2⟩ := R.own er ni.1 hw
          obtain ⟨y, Q1, eq⟩ := acc_down (R.qsub i) (R.qsame i) hokV er o1 o2
          obtain ⟨V2, ev, EV⟩ := acc_part (R.qsub i) (R.qsame i) eq hokV
          rw [er] at ev; cases ev
          have hQ : Sub (Q i) ((s.th i).view s.mem) := (R.qsub i).trans hS
          have hQ3 : Same3 (Q i) ((s.th i).view s.mem) :=
            ⟨(R.same i).nextAddr.trans (R.qsame i).nextAddr, (R.same i).nextVec.trans (R.qsame i).nextVec, (R.same i).log.trans (R.qsame i).log⟩
          obtain ⟨G2, eg2, EG⟩ := acc_part hQ hQ3 eq hok
          rw [eg] at eg2; cases eg2
          have kn : ∀ j v nv, (V j).vec v = some nv → ∃ j w, w < (s.th j).nextVec ∧ (As j).vec w = v := by
            intro j v nv h
            obtain ⟨w, hw, e⟩ := R.known j v nv h
            exact ⟨j, w, by have := (R.same j).nextVec; simp only [Thread.view] at this; omega, e⟩
          have ne : ∀ j, j ≠ i → Sub (Q j) G1 ∧ Disj Q1 (Q j) := fun j hj =>
            EG.other (Q j) (((R.qsub j).trans (R.vsub j)).view _) (R.qq i j (Ne.symm hj))
              (free_out' fr ((R.qsub j).trans (R.vsub j)) fun v nv h => kn j v nv ((R.qsub j).vec v nv h))
          have sG : Sub S G1 ∧ Disj Q1 S := EG.other S ((R.ssub i).trans hS) (R.qs i)
              (free_out' fr ((R.ssub i).trans (R.vsub i)) fun v nv h => kn i v nv ((R.ssub i).vec v nv h))
          have sV : Sub S V1 := by
            refine (EV.other S (R.ssub i) (R.qs i) ?_).1
            have := free_out' fr ((R.ssub i).trans (R.vsub i)) fun v nv h => kn i v nv ((R.ssub i).vec v nv h)
            have c1 := (R.same i).nextAddr
            have c2 := (R.same i).nextVec
            cases a <;> simp only [Fine.Out] at this ⊢
            · rw [← c1]; exact this
            · rw [← c1, ← c2]; exact this
          refine rest (fun j => if j = i then Q1 else Q j) ⟨fun j => ?_, fun j => ?_, fun j => ?_, same', fun j => ?_, fun j => ?_, fun j l hjl => ?_, known', fun j => ?_, fun j => ?_, ?_, ?_⟩
          · (try dsimp only); split
            · exact E.sub
            · rename_i hj
              exact Sub.union (R.qsub j) (R.ssub j) (R.vlive j) (R.vvec j) (ne j hj).1 sG.1
          · (try dsimp only); split
            · exact EV.sub
            · exact R.qsub j
          · split
            · exact sV
            · exact R.ssub j
          · (try dsimp only); split
            · exact EV.same
            · exact R.qsame j
          · (try dsimp only); split
            · exact sG.2
            · exact R.qs j
          · (try dsimp only); split
            · rename_i h1; subst h1
              rw [if_neg (Ne.symm hjl)]
              exact (ne l (Ne.symm hjl)).2
            · rename_i h1
              split
              · rename_i h2; subst h2
                have := (ne j h1).2
                refine ⟨fun a h3 h4 => this.here a h4 h3, fun v nv h3 => ?_⟩
                cases h4 : Q1.vec v with
                | none => rfl
                | some nw => rw [this.vec v nw h4] at h3; cases h3
              · exact R.qq j l hjl
          · (try dsimp only); split
            · intro b hb
              rcases EV.live b hb with h | ⟨h1, h2⟩
              · exact .inl h
              · rcases R.vlive i b h1 with h | h
                · rw [h] at h2; cases h2
                · exact .inr h
            · exact R.vlive j
          · (try dsimp only); split
            · intro v nv hb
              rcases EV.vec v nv hb with h | ⟨h1, h2⟩
              · exact .inl h
              · rcases R.vvec i v nv h1 with h | h
                · rw [h] at h2; cases h2
                · exact .inr h
            · exact R.vvec j
          · intro b hb
            rcases EG.live b hb with h | ⟨h1, h2⟩
            · exact .inr ⟨i, by rw [if_pos rfl]; exact h⟩
            · rcases R.live b h1 with h | ⟨j, hj⟩
              · exact .inl h
              · refine .inr ⟨j, ?_⟩
                split
                · rename_i h3; subst h3; rw [hj] at h2; cases h2
                · exact hj
          · intro v nv hb
            rcases EG.vec v nv hb with h | ⟨h1, h2⟩
            · exact .inr ⟨i, by rw [if_pos rfl]; exact h⟩
            · rcases R.vec v nv h1 with h | ⟨j, hj⟩
              · exact .inl h
              · refine .inr ⟨j, ?_⟩
                split
                · rename_i h3; subst h3; rw [hj] at h2; cases h2
                · exact hj
      · exact absurd er (okay_run hokV)
    · cases e

/-- Every schedule: each thread is where it would be with its own values and the shared ones. -/
theorem mrel_run {s s' : Sys n α β} {Q V : Fin n → Heap α} (R : MRel As s S Q V) (g : ∀ i, Good (As i) (V i, (s.th i).prog))
    (nw : ∀ i, NW S (As i) (s.th i).prog (V i)) {sched : List (Fin n)} (e : s.run As sched = some s') : ∃ Q' V', MRel As s' S Q' V' ∧
      (∀ i, Good (As i) (V' i, (s'.th i).prog)) ∧ (∀ i, NW S (As i) (s'.th i).prog (V' i)) ∧
      ∀ j, (V' j, (s'.th j).prog) = (alone (As j))^[sched.count j] (V j, (s.th j).prog) := by
  induction sched generalizing s Q V with
  | nil => simp only [Sys.run, Option.some.injEq] at e; subst e; exact ⟨Q, V, R, g, nw, fun j => rfl⟩
  | cons i is ih =>
    simp only [Sys.run] at e
    cases e1 : s.step As i with
    | none => rw [e1] at e; cases e
    | some s1 =>
      rw [e1] at e
      obtain ⟨Q1, V1, R1, nw1, h1⟩ := mrel_step R g nw e1
      have g1 : ∀ j, Good (As j) (V1 j, (s1.th j).prog) := by
        intro j
        rw [h1 j]
        split
        · rename_i h; subst h; exact (g j).alone
        · exact g j
      obtain ⟨Q2, V2, R2, g2, nw2, h2⟩ := ih R1 g1 nw1 e
      refine ⟨Q2, V2, R2, g2, nw2, fun j => ?_⟩
      rw [h2 j, h1 j, List.count_cons]
      by_cases hj : j = i
      · subst hj; simp only [if_pos, BEq.rfl, Function.iterate_add_apply, Function.iterate_one, if_true]
      · have : (i == j) = false := by simp [Ne.symm hj]
        rw [if_neg hj, this]; simp

theorem mrel_norace {s : Sys n α β} {Q V : Fin n → Heap α} (R : MRel As s S Q V) (g : ∀ i, Good (As i) (V i, (s.th i).prog))
    (nw : ∀ i, NW S (As i) (s.th i).prog (V i)) : ¬ s.Race := by
  have key : ∀ (i j : Fin n) a ka b kb, i ≠ j → (s.th i).prog = .acc a ka → (s.th j).prog = .acc b kb → a.reads = false →
      ¬ ((∃ x, a.node? = some x ∧ b.node? = some x) ∨ (∃ v, a.vec? = some v ∧ b.vec? = some v) ∨
        ∃ v nv x, a = .freeVec v ∧ s.mem.vec v = some nv ∧ b.node? = some x ∧ nv.base ≤ x ∧ x < nv.base + nv.cap) := by
    intro i j a ka b kb hij ea eb hw hc
    have ga := g i
    have gb := g j
    have na := nw i
    rw [ea] at ga na
    rw [eb] at gb
    have dis : ∀ x, (Q i).Here x → (V j).live x = true → False := by
      intro x h1 h2
      rcases R.vlive j x h2 with h | h
      · exact (R.qq i j hij).here x h1 (.inl h)
      · exact (R.qs i).here x h1 (.inl h)
    rcases hc with ⟨x, h1, h2⟩ | ⟨v, h1, h2⟩ | ⟨v, nv, x, rfl, hv, h2, h3⟩
    · obtain ⟨_, _, e1⟩ := ga.touch (.inl (by rw [h1]; simp))
      obtain ⟨_, _, e2⟩ := gb.touch (.inl (by rw [h2]; simp))
      exact dis x (.inl ((R.own e1 na.1 hw).1 x h1)) (node_live e2 h2)
    · obtain ⟨_, _, e1⟩ := ga.touch (.inr (by rw [h1]; simp))
      obtain ⟨_, _, e2⟩ := gb.touch (.inr (by rw [h2]; simp))
      obtain ⟨nv, f1⟩ := (R.own e1 na.1 hw).2 v h1
      obtain ⟨nw, f2⟩ := vec_there e2 h2
      rcases R.vvec j v nw f2 with f2 | f2
      · have := (R.qq i j hij).vec v nv f1
        rw [f2] at this; cases this
      · have := (R.qs i).vec v nv f1
        rw [f2] at this; cases this
    · obtain ⟨_, _, e1⟩ := ga.touch (.inr (by simp [Acc.vec?]))
      obtain ⟨_, _, e2⟩ := gb.touch (.inl (by rw [h2]; simp))
      obtain ⟨nw, f1⟩ := (R.own e1 na.1 hw).2 v rfl
      have := (R.vsub i).vec v nw ((R.qsub i).vec v nw f1)
      rw [hv] at this
      obtain rfl := Option.some.inj this
      exact dis x (.inr ⟨v, nv, f1, h3⟩) (node_live e2 h2)
  rintro ⟨i, j, a, ka, b, kb, hij, ea, eb, hr, hc⟩
  by_cases ha : a.reads = false
  · exact key i j a ka b kb hij ea eb ha hc
  · have hb : b.reads = false := hr.resolve_left ha
    refine key j i b kb a ka (Ne.symm hij) eb ea hb ?_
    rcases hc with ⟨x, h1, h2⟩ | ⟨v, h1, h2⟩ | ⟨v, nv, x, rfl, hv, h2, h3⟩
    · exact .inl ⟨x, h2, h1⟩
    · exact .inr (.inl ⟨v, h2, h1⟩)
    · exact absurd rfl ha

end Fine
end Trees
