import Verif.Proof.Split
import Verif.Proof.FineLit
/-
Threads: reading contents, and what is left at the end.
-/
namespace Trees
set_option linter.unusedSimpArgs false
set_option linter.unusedVariables false
variable {α β γ : Type}
namespace Fine
variable {n : Nat} {As : Fin n → Alloc}

/-- A reading function that gives a result in a part of memory gives the same result in all of it. -/
def Frame (c : M α β) : Prop := ∀ H G, Sub H G → Same3 H G → ∀ b H', c H = .ok b H' → H' = H ∧ c G = .ok b G

theorem Frame.pure (b : β) : Frame (Pure.pure b : M α β) := by
  intro H G _ _ b' H' e
  cases e
  exact ⟨rfl, rfl⟩

theorem Frame.bind {c : M α β} {f : β → M α γ} (h1 : Frame c) (h2 : ∀ b, Frame (f b)) : Frame (c >>= f) := by
  intro H G hs hc b H' e
  rw [M.bind_apply] at e ⊢
  cases e1 : c H with
  | ok x H1 =>
    rw [e1] at e
    obtain ⟨rfl, e2⟩ := h1 H G hs hc x H1 e1
    rw [e2]
    exact h2 x _ G hs hc b H' e
  | err x H1 => rw [e1] at e; cases e

theorem ro_part {p : Prog α β} (hp : RO p) {A : Alloc} {H G H' : Heap α} (hs : Sub H G) (hc : Same3 H G) {b : β} (e : p.run A H = .ok b H') :
    H' = H ∧ p.run A G = .ok b G := by
  induction p with
  | ret c => cases e; exact ⟨rfl, rfl⟩
  | fail x => cases e
  | acc a k ih =>
    simp only [Prog.run] at e ⊢
    rcases Acc.reads_same (A := A) hp.1 H with ⟨x, e1⟩ | ⟨x, e1⟩
    · rw [e1] at e
      obtain ⟨G', e2, -⟩ := acc_part hs hc e1 (by cases a <;> first | trivial | cases hp.1)
      have : G' = G := by
        rcases Acc.reads_same (A := A) hp.1 G with ⟨y, e3⟩ | ⟨y, e3⟩
        · rw [e2] at e3; cases e3; rfl
        · rw [e2] at e3; cases e3
      subst this
      rw [e2]
      exact ih x (hp.2 x) e
    · rw [e1] at e; cases e

theorem Frame.of_ro {p : Prog α β} {c : M α β} (hp : RO p) (hi : Imp Alloc.fresh p c) : Frame c := by
  intro H G hs hc b H' e
  rw [← hi H] at e
  obtain ⟨h1, h2⟩ := ro_part hp hs hc e
  exact ⟨h1, by rw [← hi G]; exact h2⟩

theorem frame_readMany {f : Addr → M α β} (h : ∀ a, Frame (f a)) (l : List Addr) : Frame (Trees.readMany f l) := by
  induction l with
  | nil => exact Frame.pure _
  | cons a l ih => exact Frame.bind (h a) fun _ => Frame.bind ih fun _ => Frame.pure _

theorem frame_readTree (k : Nat) (a : Addr) : Frame (Trees.readTree k a : M α _) := by
  induction k generalizing a with
  | zero => intro H G _ _ b H' e; cases e
  | succ k ih =>
    unfold Trees.readTree
    exact Frame.bind (Frame.of_ro (ro_dataRef _) (imp_dataRef _)) fun d => Frame.bind (Frame.of_ro (ro_children _) (imp_children _)) fun cs =>
      Frame.bind (frame_readMany ih cs) fun ts => Frame.pure _

theorem dataRef_live {a : Addr} {H H' : Heap α} {d : α} (e : Trees.dataRef a H = .ok d H') : H.live a = true := by
  cases l : H.live a with
  | true => rfl
  | false => simp [Trees.dataRef, Trees.getData, rd, l, M.bind_apply, Res.bind] at e

theorem children_live {a : Addr} {H H' : Heap α} {l : List Addr} (e : Trees.children a H = .ok l H') : H.live a = true := by
  cases h : H.live a with
  | true => rfl
  | false => simp [Trees.children, M.fuelled, Trees.iter, Trees.getHead, Trees.getSize, rd, h, M.bind_apply, Res.bind] at e

theorem frame_readKids (a : Addr) : Frame (Trees.readKids a : M α _) := by
  intro H G hs hc b H' e
  simp only [Trees.readKids, M.fuelled] at e ⊢
  have hl : H.live a = true := by
    rw [M.bind_apply] at e
    cases e1 : Trees.children a H with
    | ok x H1 => exact children_live e1
    | err x H1 => rw [e1] at e; cases e
  rw [hs.size a hl]
  exact Frame.bind (Frame.of_ro (ro_children _) (imp_children _)) (fun cs => frame_readMany (frame_readTree _) cs) H G hs hc b H' e

theorem frame_readRoot (a : Addr) : Frame (M.fuelled fun h => Trees.readTree ((h.size a).descendants + 1) a : M α _) := by
  intro H G hs hc b H' e
  simp only [M.fuelled] at e ⊢
  have hl : H.live a = true := by
    simp only [Trees.readTree] at e
    rw [M.bind_apply] at e
    cases e1 : Trees.dataRef a H with
    | ok x H1 => exact dataRef_live e1
    | err x H1 => rw [e1] at e; cases e
  rw [hs.size a hl]
  exact frame_readTree _ _ H G hs hc b H' e

theorem frame_readHandle (hd : Handle) : Frame (Trees.readHandle hd : M α _) := by
  cases hd with
  | tree r => exact Frame.bind (frame_readRoot r) fun _ => Frame.pure _
  | forest r => exact Frame.bind (frame_readKids r) fun _ => Frame.pure _
  | iter r => exact Frame.bind (frame_readKids r) fun _ => Frame.pure _

/-- The contents of the variables of a thread, in its part of memory and in all of it. -/
theorem store_part {A : Alloc} {H G : Heap α} {v : Vars} {m' : Machine α} {K : Addr → List Addr} (hs : Sub H G) (hc : Same3 H G)
    (r : AMRel A (v.at H) m') (M : MInv m' K) : (v.at G).store = m'.store := by
  have e1 : (v.at G).view = m'.view := by
    funext x
    simp only [Machine.view]
    have hr := r.at x
    show (match v.env x with | none => none | some hd => match Trees.readHandle hd G with | .ok v _ => some v | .err _ _ => none) = _
    have hr' : v.env x = (m'.env x).map (Handle.ren A) := hr
    rw [hr']
    have hA := M.abs_store.vars x
    cases he : m'.env x with
    | none => rfl
    | some hd =>
      rw [he] at hA
      obtain ⟨w, -, hv⟩ := hA
      have e2 := hv.read M.inv (M.hnd x hd he)
      obtain ⟨L', e3⟩ := Proof.ASim.look (al_readHandle hd) r.heap e2
      simp only [Option.map_some]
      obtain ⟨-, e4⟩ := frame_readHandle (hd.ren A) _ G hs hc _ _ e3
      rw [e2, e4]
      rfl
  simp only [Machine.store]
  rw [e1]
  show Store.mk m'.view v.fresh G.log = _
  rw [hc.log, show v.fresh = m'.fresh from r.fresh, show H.log = m'.heap.log from r.heap.log]

/-- When a machine has no variables it has no memory. -/
theorem part_released {A : Alloc} {H : Heap α} {v : Vars} {m' : Machine α} {K : Addr → List Addr} (r : AMRel A (v.at H) m') (M : MInv m' K)
    (hv : ∀ x, v.env x = none) : (∀ a, H.live a = false) ∧ ∀ w, H.vec w = none := by
  have hn : ∀ x, m'.env x = none := by
    intro x
    have hr : v.env x = (m'.env x).map (Handle.ren A) := r.at x
    rw [hv x] at hr
    cases h : m'.env x with
    | none => rfl
    | some hd => rw [h] at hr; cases hr
  have nu : ∀ a, ¬ m'.heap.Used a := by
    intro a ha
    obtain ⟨r, h1, h2, -⟩ := M.inv.exists_root ha
    obtain ⟨x, hd, e, -⟩ := M.all r h1 h2
    rw [hn x] at e; cases e
  have nv : ∀ w nw, m'.heap.vec w ≠ some nw := by
    intro w nw h
    have h3 := M.st.cnt w nw h
    have h4 := M.st.pos w nw h
    have h5 : 0 < usedCnt m'.heap nw := by omega
    obtain ⟨b, -, hb2⟩ := List.countP_pos_iff.mp h5
    exact nu b (Heap.usedB_iff.mp hb2)
  constructor
  · intro a
    cases h : H.live a with
    | false => rfl
    | true =>
      obtain ⟨b, hb, -⟩ := r.heap.onto a h
      rcases M.st.tight b hb with h1 | ⟨w, nw, h1, -⟩
      · exact absurd h1 (nu b)
      · exact absurd h1 (nv w nw)
  · intro w
    cases h : H.vec w with
    | none => rfl
    | some nw =>
      obtain ⟨x, nx, h1, -⟩ := r.heap.vonto w nw h
      exact absurd h1 (nv x nx)

/-! ### Threads do not fail -/

theorem full_sys {s s' : Sys n α β} {i : Fin n} (f : ∀ j, Full (s.th j).prog) (e : s.step As i = some s') (j : Fin n) :
    Full (s'.th j).prog ∨ ∃ x, x ≠ .alloc ∧ (s'.th j).prog = .fail x := by
  simp only [Sys.step] at e
  split at e
  · rename_i a k hp
    split at e
    · split at e
      · rename_i x h hx
        cases e
        left
        dsimp only [Sys.set]
        split
        · have := f i; rw [hp] at this; exact this x
        · exact f j
      · cases e
      · rename_i x h hx hr
        cases e
        dsimp only [Sys.set]
        split
        · exact .inr ⟨x, hx, rfl⟩
        · exact .inl (f j)
    · cases e
  · cases e; exact .inl (f j)

theorem full_run {s s' : Sys n α β} {H : Fin n → Heap α} (R : Rel As s H) (g : ∀ i, Good (As i) (H i, (s.th i).prog))
    (f : ∀ j, Full (s.th j).prog) {sched : List (Fin n)} (e : s.run As sched = some s') (j : Fin n) : Full (s'.th j).prog := by
  induction sched generalizing s H with
  | nil => simp only [Sys.run, Option.some.injEq] at e; subst e; exact f j
  | cons i is ih =>
    simp only [Sys.run] at e
    cases e1 : s.step As i with
    | none => rw [e1] at e; cases e
    | some s1 =>
      rw [e1] at e
      obtain ⟨H1, R1, h1⟩ := rel_step R g e1
      have g1 : ∀ j, Good (As j) (H1 j, (s1.th j).prog) := by
        intro j
        rw [h1 j]
        split
        · rename_i h; subst h; exact (g j).alone
        · exact g j
      refine ih R1 g1 (fun j => ?_) e
      rcases full_sys f e1 j with h | ⟨x, hx, h⟩
      · exact h
      · have := g1 j x (H1 j) (by rw [h]; rfl)
        exact absurd this hx

end Fine
end Trees
