import Verif.Proof.RcRestrict
import Verif.Proof.RcDestroy
/-
The invariant of client programs with shared nodes, and calls on exclusive values in such programs.
-/
namespace Trees
set_option linter.unusedSimpArgs false
set_option linter.unusedVariables false
variable {α β γ : Type}
open Classical

/-! ### Counting handles -/

/-- Number of handles to node `a` among the variables below `n`. -/
def nh (n : Nat) (T : Var → Option Addr) (a : Addr) : Nat := (List.range n).countP fun k => decide (T k = some a)

/-- Number of counts in addition to the one every node has. -/
def extra (G : Heap α) (n : Nat) (T : Var → Option Addr) (a : Addr) : Nat := nh n T a - (if G.up a = none then 1 else 0)

theorem nh_pos {n : Nat} {T : Var → Option Addr} {a : Addr} : nh n T a ≠ 0 ↔ ∃ k, k < n ∧ T k = some a := by
  rw [← Nat.pos_iff_ne_zero, nh, List.countP_pos_iff]
  simp

theorem nh_ext {n n' : Nat} {T : Var → Option Addr} (hn : n ≤ n') (h : ∀ k, n ≤ k → T k = none) : nh n' T = nh n T := by
  funext a
  obtain ⟨d, rfl⟩ := Nat.le.dest hn
  simp only [nh, List.range_add, List.countP_append, List.countP_map]
  rw [Nat.add_eq_left, List.countP_eq_zero]
  intro k _
  simp [h (n + k) (Nat.le_add_right _ _)]

theorem nh_upd {n : Nat} {T : Var → Option Addr} {k : Var} (hk : k < n) (o : Option Addr) (a : Addr) :
    nh n (upd T k o) a + (if T k = some a then 1 else 0) = nh n T a + (if o = some a then 1 else 0) := by
  have : ∀ (l : List Nat), l.Nodup → k ∈ l → l.countP (fun j => decide (upd T k o j = some a)) + (if T k = some a then 1 else 0) =
      l.countP (fun j => decide (T j = some a)) + (if o = some a then 1 else 0) := by
    intro l
    induction l with
    | nil => intro _ h; simp at h
    | cons b l ih =>
      intro nd h
      have nd' := List.nodup_cons.mp nd
      simp only [List.countP_cons, decide_eq_true_eq]
      rcases List.mem_cons.mp h with e | h
      · subst e
        have : l.countP (fun j => decide (upd T k o j = some a)) = l.countP (fun j => decide (T j = some a)) := by
          apply List.countP_congr
          intro x hx
          have : x ≠ k := fun e => nd'.1 (e ▸ hx)
          rw [upd_of_ne _ _ this]
        rw [this]; simp only [upd_self]; omega
      · have hb : b ≠ k := fun e => nd'.1 (e ▸ h)
        rw [upd_of_ne _ _ hb]
        have := ih nd'.2 h
        omega
  exact this _ List.nodup_range (List.mem_range.mpr hk)

theorem nh_bind {n : Nat} {T : Var → Option Addr} (h : T n = none) (b a : Addr) :
    nh (n + 1) (upd T n (some b)) a = nh n T a + (if b = a then 1 else 0) := by
  have h1 := nh_upd (T := T) (Nat.lt_succ_self n) (some b) a
  have h2 : nh (n + 1) T a = nh n T a := by
    simp only [nh, List.range_succ, List.countP_append, List.countP_cons, List.countP_nil, h]
    simp
  rw [h2, h] at h1
  simpa using h1

/-! ### The invariant -/

/-- Node `a` belongs to an exclusive value. -/
def Excl (env : Var → Option Handle) (K : Addr → List Addr) (a : Addr) : Prop := ∃ x hd, env x = some hd ∧ Reach K hd.addr a

/-- Invariant of the machine with shared nodes. `G` is the memory as if every node had one owner, `T` the nodes of the handles. -/
structure RInv (m : RMachine α) (G : Heap α) (K : Addr → List Addr) (T : Var → Option Addr) : Prop where
  heap : m.heap = bumpE (extra G m.fresh T) G
  inv : Inv G K
  st : SInv G
  kv : ∀ a c, c ∈ K a → G.IsVal c
  hnd : ∀ x hd, m.env x = some hd → HOK G hd
  dist : ∀ x y hx hy, m.env x = some hx → m.env y = some hy → hx.addr = hy.addr → x = y
  fr : ∀ x, m.fresh ≤ x → m.env x = none ∧ m.refs x = none
  sep : ∀ x r, m.refs x = some r → m.env x = none
  rcs : ∀ k r, m.refs k = some (.rc r) → ∃ a, T k = some a ∧ r.Is G a
  tgt : ∀ k a, T k = some a → (∃ r, m.refs k = some (.rc r)) ∧ G.Used a ∧ ¬ Excl m.env K a
  roots : ∀ a, G.Used a → G.up a = none → (∃ x hd, m.env x = some hd ∧ hd.addr = a) ∨ ∃ k, T k = some a
  guards : ∀ g k a w, m.refs g = some (.guard k a w) → T k = some a
  wk : ∀ k r, m.refs k = some (.weak r) → ∃ a, r = .scattered a ∧ a < G.nextAddr ∧
    (G.live a = true → (∃ d, G.data a = .scattered d a) ∧ ¬ Excl m.env K a)

section
variable {m : RMachine α} {G : Heap α} {K : Addr → List Addr} {T : Var → Option Addr}

theorem RInv.lt (I : RInv m G K T) {k : Var} {a : Addr} (h : T k = some a) : k < m.fresh := by
  by_contra hk
  obtain ⟨r, hr⟩ := (I.tgt k a h).1
  rw [(I.fr k (Nat.le_of_not_lt hk)).2] at hr; simp at hr

theorem RInv.tnone (I : RInv m G K T) {k : Var} (h : m.fresh ≤ k) : T k = none := by
  cases ht : T k with
  | none => rfl
  | some a => exact absurd (I.lt ht) (Nat.not_lt.mpr h)

theorem RInv.hE (I : RInv m G K T) {a : Addr} (h : extra G m.fresh T a ≠ 0) : ∃ k, T k = some a := by
  have : nh m.fresh T a ≠ 0 := by simp only [extra] at h; omega
  obtain ⟨k, -, hk⟩ := nh_pos.mp this
  exact ⟨k, hk⟩

theorem RInv.eUsed (I : RInv m G K T) {a : Addr} (h : extra G m.fresh T a ≠ 0) : G.Used a := by
  obtain ⟨k, hk⟩ := I.hE h
  exact (I.tgt k a hk).2.1

theorem Excl.up {env : Var → Option Handle} (hI : Inv G K) (hnd : ∀ x hd, env x = some hd → HOK G hd) {a c : Addr}
    (hc : c ∈ K a) : Excl env K c ↔ Excl env K a := by
  constructor
  · rintro ⟨x, hd, h1, h2⟩
    refine ⟨x, hd, h1, ?_⟩
    rcases h2.cases_tail with e | ⟨b, h3, h4⟩
    · exact absurd (e ▸ hc) (hI.not_mem_of_root (hnd x hd h1).root)
    · rw [hI.eq_of_mem hc h4]; exact h3
  · rintro ⟨x, hd, h1, h2⟩; exact ⟨x, hd, h1, h2.tail hc⟩

/-- The shared nodes. -/
noncomputable def shared (env : Var → Option Handle) (G : Heap α) (K : Addr → List Addr) (a : Addr) : Bool :=
  decide (G.Used a ∧ ¬ Excl env K a)

theorem shared_iff {env : Var → Option Handle} {a : Addr} : shared env G K a = true ↔ G.Used a ∧ ¬ Excl env K a := by
  simp [shared]

theorem RInv.tshared (I : RInv m G K T) {k : Var} {a : Addr} (h : T k = some a) : shared m.env G K a = true :=
  shared_iff.mpr (I.tgt k a h).2

theorem RInv.whole (I : RInv m G K T) : Whole (shared m.env G K) K := by
  intro a c hc
  rw [Bool.eq_iff_iff, shared_iff, shared_iff, Excl.up I.inv I.hnd hc]
  exact ⟨fun h => ⟨I.inv.used_parent hc, h.2⟩, fun h => ⟨I.inv.used_of_mem hc, h.2⟩⟩

theorem RInv.not_shared (I : RInv m G K T) {x : Var} {hd : Handle} (h : m.env x = some hd) {b : Addr} (hb : Reach K hd.addr b) :
    shared m.env G K b = false := by
  cases hs : shared m.env G K b with
  | false => rfl
  | true => exact absurd ⟨x, hd, h, hb⟩ (shared_iff.mp hs).2

/-- The exclusive part of the program, on its own. -/
theorem RInv.cutM (I : RInv m G K T) : MInv ⟨cut (shared m.env G K) G, m.env, m.fresh⟩ (cutK (shared m.env G K) K) := by
  refine ⟨cut_inv I.inv I.whole, cut_sinv I.st, ?_, ?_, I.dist, ?_, fun x hx => (I.fr x hx).1⟩
  · intro a c hc
    simp only [cutK] at hc
    split at hc
    · simp at hc
    · exact I.kv a c hc
  · intro x hd hx
    have ho := I.hnd x hd hx
    refine ⟨cut_used.mpr ⟨ho.used, I.not_shared hx (.refl _)⟩, ho.root, ?_⟩
    have := ho.kind
    cases hd <;> exact this
  · intro a ha hu
    have h1 := cut_used.mp ha
    rcases I.roots a h1.1 hu with h | ⟨k, hk⟩
    · exact h
    · have := I.tshared hk
      rw [h1.2] at this; simp at this

/-- The variables that hold the first handle to a shared root. -/
noncomputable def firstH (G : Heap α) (T : Var → Option Addr) (k : Var) : Option Handle :=
  match T k with
  | some a => if G.up a = none ∧ ∀ j, j < k → T j ≠ some a then some (.tree a) else none
  | none => none

theorem firstH_some {k : Var} {hd : Handle} (h : firstH G T k = some hd) :
    ∃ a, T k = some a ∧ G.up a = none ∧ hd = .tree a ∧ ∀ j, j < k → T j ≠ some a := by
  simp only [firstH] at h
  split at h
  · rename_i a ha
    split at h
    · rename_i hc
      exact ⟨a, ha, hc.1, (Option.some.inj h).symm, hc.2⟩
    · simp at h
  · simp at h

theorem firstH_exists {k : Var} {a : Addr} (h : T k = some a) (hu : G.up a = none) : ∃ j, firstH G T j = some (.tree a) := by
  induction k using Nat.strongRecOn with
  | _ k ih =>
    by_cases hj : ∃ j, j < k ∧ T j = some a
    · obtain ⟨j, h1, h2⟩ := hj
      exact ih j h1 h2
    · push Not at hj
      refine ⟨k, ?_⟩
      simp only [firstH, h]
      rw [if_pos ⟨hu, hj⟩]

theorem RInv.gnone (I : RInv m G K T) {x : Var} {hd : Handle} (h : firstH G T x = some hd) : m.env x = none := by
  obtain ⟨a, h1, -⟩ := firstH_some h
  obtain ⟨r, hr⟩ := (I.tgt x a h1).1
  exact I.sep x _ hr

theorem RInv.glt (I : RInv m G K T) {x : Var} {hd : Handle} (h : firstH G T x = some hd) : x < m.fresh := by
  obtain ⟨a, h1, -⟩ := firstH_some h
  exact I.lt h1

theorem overlay_cases {g env : Var → Option Handle} {x : Var} {hd : Handle} (h : overlay g env x = some hd) :
    env x = some hd ∨ (env x = none ∧ g x = some hd) := by
  simp only [overlay] at h
  cases he : env x with
  | none => rw [he] at h; exact .inr ⟨rfl, by simpa using h⟩
  | some y => rw [he] at h; left; simpa using h

/-- The whole memory as that of an exclusive program. -/
theorem RInv.ghost (I : RInv m G K T) : MInv ⟨G, overlay (firstH G T) m.env, m.fresh⟩ K := by
  refine ⟨I.inv, I.st, I.kv, ?_, ?_, ?_, ?_⟩
  · intro x hd hx
    rcases overlay_cases hx with h | ⟨-, h⟩
    · exact I.hnd x hd h
    · obtain ⟨a, h1, h2, rfl, -⟩ := firstH_some h
      refine ⟨(I.tgt x a h1).2.1, h2, ?_⟩
      obtain ⟨r, hr⟩ := (I.tgt x a h1).1
      obtain ⟨b, h3, h4⟩ := I.rcs x r hr
      rw [h1] at h3; cases h3
      exact h4.isVal
  · intro x y hx hy ex ey e
    rcases overlay_cases ex with h | ⟨-, h⟩ <;> rcases overlay_cases ey with h' | ⟨-, h'⟩
    · exact I.dist x y hx hy h h' e
    · obtain ⟨a, h1, h2, rfl, -⟩ := firstH_some h'
      exact absurd ⟨x, hx, h, by rw [e]; exact .refl _⟩ (I.tgt y a h1).2.2
    · obtain ⟨a, h1, h2, rfl, -⟩ := firstH_some h
      exact absurd ⟨y, hy, h', by rw [← e]; exact .refl _⟩ (I.tgt x a h1).2.2
    · obtain ⟨a, h1, h2, rfl, h3⟩ := firstH_some h
      obtain ⟨b, g1, g2, rfl, g3⟩ := firstH_some h'
      simp only [Handle.addr] at e
      subst e
      rcases Nat.lt_trichotomy x y with h | h | h
      · exact absurd h1 (g3 x h)
      · exact h
      · exact absurd g1 (h3 y h)
  · intro a ha hu
    rcases I.roots a ha hu with ⟨x, hd, h1, h2⟩ | ⟨k, hk⟩
    · exact ⟨x, hd, by simp [overlay, h1], h2⟩
    · obtain ⟨j, hj⟩ := firstH_exists hk hu
      exact ⟨j, .tree a, by simpa [overlay, I.gnone hj] using hj, rfl⟩
  · intro x hx
    simp only [overlay, (I.fr x hx).1, Option.none_or]
    simp [firstH, I.tnone hx]

/-! ### What an exclusive call does not touch -/

/-- The nodes `P` are left alone. -/
structure Keep (P : Addr → Bool) (G : Heap α) (K : Addr → List Addr) (G' : Heap α) (K' : Addr → List Addr) : Prop where
  used : ∀ a, P a = true → G'.Used a
  kids : ∀ a, P a = true → K' a = K a
  data : ∀ a, P a = true → G'.data a = G.data a
  up : ∀ a, P a = true → G'.up a = G.up a
  mono : Mono G G'

theorem rel_used {ρ : Ctx α} {X H : Heap α} (A : HRel ρ X H) {a : Addr} (h : X.Used a) : H.Used a := by
  have hp := A.notP h.1
  exact ⟨A.liveX a h.1, by rw [A.data, hp]; exact h.2⟩

theorem is_rel {P : Addr → Bool} (hS : SInv G) {X' G' : Heap α} (A : HRel (cutCtx P G) X' G') (hP : ∀ a, P a = true → G.Used a)
    {r : RcRef} {a : Addr} (hr : r.Is G a) (hp : P a = true) : r.Is G' a := by
  have hd : G'.data a = G.data a := by rw [A.data]; simp [cutCtx, hp]
  cases r with
  | scattered o => exact ⟨hr.1, by rw [hd]; exact hr.2⟩
  | piled v i =>
    obtain ⟨nv, d, h1, h2, h3, h4⟩ := hr
    have hin : InVec nv a := ⟨by rw [h3]; exact Nat.le_add_right _ _, by rw [h3]; exact Nat.add_lt_add_left h2 _⟩
    have hR : (cutCtx P G).R v = some { nv with refCnt := slots (inP P G) nv } :=
      partVec_of h1 hin (by simp [inP, Heap.usedB_iff.mpr (hP a hp), hp])
    have hv := A.vec v
    rw [hR] at hv
    cases hx : X'.vec v with
    | none => rw [hx] at hv; exact ⟨_, d, hv, h2, h3, by rw [hd]; exact h4⟩
    | some x =>
      have hs := A.same v x _ hx hR
      rw [hx] at hv
      refine ⟨_, d, hv, ?_, ?_, by rw [hd]; exact h4⟩
      · show i < x.cap
        rw [← hs.2.1]; exact h2
      · show a = x.base + i
        rw [← hs.1]; exact h3

/-- The store of exclusive values. -/
theorem RInv.hden (I : RInv m G K T) {x : Var} {hd : Handle} (hx : m.env x = some hd) : ∃ v, HDen G K hd v ∧ m.excl.view x = some v := by
  obtain ⟨v, hv⟩ := HDen.exists I.inv I.kv (I.hnd x hd hx)
  refine ⟨v, hv, ?_⟩
  have ho := I.hnd x hd hx
  have hd' : HDen m.heap K hd v := by rw [I.heap]; cases hd <;> cases v <;> exact hv
  have ho' : HOK m.heap hd := by
    rw [I.heap]
    exact ⟨ho.used, ho.root, by have := ho.kind; cases hd <;> exact this⟩
  have hI : Inv m.heap K := by rw [I.heap]; exact I.inv.over _ _
  simp only [Machine.view, RMachine.excl, hx, hd'.read hI ho']

theorem RInv.cut_store (I : RInv m G K T) : (⟨cut (shared m.env G K) G, m.env, m.fresh⟩ : Machine α).store = m.excl.store := by
  refine Abs.store_eq I.cutM ⟨?_, rfl, ?_⟩
  · intro x
    show match m.env x with
      | none => _
      | some hd => _
    cases hx : m.env x with
    | none => simp [Machine.store, Machine.view, RMachine.excl, hx]
    | some hd =>
      obtain ⟨v, h1, h2⟩ := I.hden hx
      refine ⟨v, h2, ?_⟩
      have hc : ∀ b, Reach K hd.addr b → cutK (shared m.env G K) K b = K b ∧ G.val b = G.val b := fun b hb => by
        simp [cutK, I.not_shared hx hb]
      have hF : Frame G K (cut (shared m.env G K) G) (cutK (shared m.env G K) K) (fun b => shared m.env G K b = true) := by
        intro b hb hT
        have hT' : shared m.env G K b = false := by simpa using hT
        exact ⟨cut_used.mpr ⟨hb, hT'⟩, by simp [cutK, hT'], rfl⟩
      exact hden_frame hF I.inv (I.hnd x hd hx) h1 (fun b hb => by rw [I.not_shared hx hb]; simp)
  · show m.heap.log = G.log
    rw [I.heap]; rfl

theorem rob_readKids {ρ : Ctx α} {X H : Heap α} (A : HRel ρ X H) (hF : ρ.Fin X) {a : Addr} {ts : List (RTree α)} (ha : X.Used a)
    (h : readKids a X = .ok ts X) : ∃ H', readKids a H = .ok ts H' := by
  have hs : H.size a = X.size a := by rw [A.size, A.notP ha.1]; rfl
  have hr : Robust (do
      let cs ← children a
      readMany (readTree ((X.size a).descendants + 1)) cs : M α (List (RTree α))) := (rob_children a).bind fun _ => rob_readMany (rob_readTree _) _
  obtain ⟨-, r⟩ := hr ρ X H A
  have h' : (do
      let cs ← children a
      readMany (readTree ((X.size a).descendants + 1)) cs : M α (List (RTree α))) X = .ok ts X := h
  rw [h'] at r
  obtain ⟨H', e, -⟩ := r hF
  refine ⟨H', ?_⟩
  show (do
      let cs ← children a
      readMany (readTree ((H.size a).descendants + 1)) cs : M α (List (RTree α))) H = _
  rw [hs]; exact e

theorem rob_readHandle {ρ : Ctx α} {X H : Heap α} (A : HRel ρ X H) (hF : ρ.Fin X) {hd : Handle} {v : Val α} (ha : X.Used hd.addr)
    (h : readHandle hd X = .ok v X) : ∃ H', readHandle hd H = .ok v H' := by
  have hs : H.size hd.addr = X.size hd.addr := by rw [A.size, A.notP ha.1]; rfl
  cases hd with
  | tree r =>
    have hr : Robust (do return Val.tree (← readTree ((X.size r).descendants + 1) r) : M α (Val α)) := (rob_readTree _ _).bind fun _ => .pure _
    obtain ⟨-, q⟩ := hr ρ X H A
    have h' : (do return Val.tree (← readTree ((X.size r).descendants + 1) r) : M α (Val α)) X = .ok v X := h
    rw [h'] at q
    obtain ⟨H', e, -⟩ := q hF
    refine ⟨H', ?_⟩
    show (do return Val.tree (← readTree ((H.size r).descendants + 1) r) : M α (Val α)) H = _
    simp only [Handle.addr] at hs
    rw [hs]; exact e
  | forest r =>
    cases hk : readKids r X with
    | ok ts X' =>
      have hx : X' = X ∧ Val.forest ts = v := by
        have : readHandle (.forest r) X = .ok (.forest ts) X' := by simp [readHandle, hk]
        rw [this] at h; simp at h; exact ⟨h.2, h.1⟩
      obtain ⟨rfl, rfl⟩ := hx
      obtain ⟨H', e⟩ := rob_readKids A hF (a := r) ha hk
      exact ⟨H', by simp [readHandle, e]⟩
    | err x X' =>
      have : readHandle (.forest r) X = .err x X' := by simp [readHandle, hk]
      rw [this] at h; simp at h
  | iter r =>
    cases hk : readKids r X with
    | ok ts X' =>
      have hx : X' = X ∧ Val.iter ts = v := by
        have : readHandle (.iter r) X = .ok (.iter ts) X' := by simp [readHandle, hk]
        rw [this] at h; simp at h; exact ⟨h.2, h.1⟩
      obtain ⟨rfl, rfl⟩ := hx
      obtain ⟨H', e⟩ := rob_readKids A hF (a := r) ha hk
      exact ⟨H', by simp [readHandle, e]⟩
    | err x X' =>
      have : readHandle (.iter r) X = .err x X' := by simp [readHandle, hk]
      rw [this] at h; simp at h

end
end Trees
