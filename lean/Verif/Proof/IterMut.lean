import Verif.Model.IterMut
import Verif.Props.Bfs
/-
Heap-level facts about the loop over `iter_mut()`.
-/
namespace Trees
set_option linter.unusedSimpArgs false
variable {α : Type}

/-- Variable `x` holds, at path `q`, the node `n` with the children `A`. -/
def IterCur (m : Machine α) (x : Var) (q : Path) (n : Addr) (A : List Addr) : Prop :=
  m.nodeAt x q = some n ∧ children n m.heap = .ok A m.heap

theorem resolve_upd {h : Heap α} {K : Addr → List Addr} (hI : Inv h K) {n : Addr} {A : List Addr} {p : Path} : ∀ {a},
    resolve K a p = some n → resolve (upd K n A) a p = some n := by
  induction p with
  | nil => intro a h; simpa [resolve] using h
  | cons i p ih =>
    intro a h
    simp only [resolve] at h ⊢
    cases hk : (K a)[i]? with
    | none => rw [hk] at h; simp at h
    | some c =>
      rw [hk] at h
      simp only at h
      have hne : a ≠ n := by
        rintro rfl
        exact hI.not_reach_up (List.mem_of_getElem? hk) (resolve_reach h)
      rw [upd_of_ne K A hne, hk]
      exact ih h

theorem IterCur.inv {m : Machine α} {K : Addr → List Addr} (M : MInv m K) {x : Var} {q : Path} {n : Addr} {A : List Addr}
    (hc : IterCur m x q n A) : ∃ hd, m.env x = some hd ∧ resolve K hd.addr q = some n ∧ m.heap.Used n ∧ K n = A := by
  obtain ⟨h1, h2⟩ := hc
  cases he : m.env x with
  | none => simp [Machine.nodeAt, he] at h1
  | some hd =>
    have ho := M.hnd x hd he
    simp only [Machine.nodeAt, he, locate_ok M.inv ho.used] at h1
    have hu := M.inv.reach_used ho.used (resolve_reach h1)
    rw [children_ok M.inv hu] at h2
    exact ⟨hd, rfl, h1, hu, by simpa using h2⟩

theorem IterCur.mk' {m' : Machine α} {K' : Addr → List Addr} {x : Var} {q : Path} {n : Addr} {hd : Handle} (hI : Inv m'.heap K')
    (he : m'.env x = some hd) (hu : m'.heap.Used hd.addr) (hn : m'.heap.Used n) (hr : resolve K' hd.addr q = some n) :
    IterCur m' x q n (K' n) := by
  refine ⟨?_, children_ok hI hn⟩
  simp [Machine.nodeAt, he, locate_ok hI hu, hr]

section
variable {m : Machine α} {K : Addr → List Addr} {x : Var} {q : Path} {n c : Addr} {a b : List Addr} {w : Val α}
  {l r : List (RTree α)} {t : RTree α}

/-- The child at position `a.length`. -/
theorem IterCur.atC (M : MInv m K) (hx : m.view x = some w) (hk : kidsAt w.kids q = some (l ++ t :: r))
    (hc : IterCur m x q n (a ++ c :: b)) (hl : a.length = l.length) :
    ∃ hd, AtC m K m.store x q l.length hd n c w (l ++ t :: r) t ∧ K n = a ++ c :: b := by
  obtain ⟨hd, h1, h2, h3, h4⟩ := hc.inv M
  obtain ⟨hd', n', g1, g2⟩ := Proof.nodeAt_at M hx hk
  have e1 : hd' = hd := by have := g2.env; rw [h1] at this; exact (Option.some.inj this).symm
  subst e1
  have e2 : n' = n := by have := g2.res; rw [h2] at this; exact (Option.some.inj this).symm
  subst e2
  have hg : (K n')[l.length]? = some c := by rw [h4, ← hl]; simp
  have hgt : (l ++ t :: r)[l.length]? = some t := by simp
  refine ⟨hd', ⟨g2, hg, hgt, ?_⟩, h4⟩
  rcases g2.kden.get l.length with ⟨e, _⟩ | ⟨c', t', e1, e2, e3⟩
  · rw [hg] at e; simp at e
  · rw [hg] at e1; rw [hgt] at e2; cases e1; cases e2; exact e3

theorem IterCur.locate (M : MInv m K) {hd : Handle} (c' : AtC m K m.store x q l.length hd n c w (l ++ t :: r) t) :
    locate hd.addr (q ++ [l.length]) m.heap = .ok (some c) m.heap := by
  have := locate_ok M.inv (M.hnd x hd c'.par.env).used (p := q ++ [l.length])
  rw [this, resolve_append, c'.par.res]
  simp [resolve, c'.get]

theorem act_prev (hr : Reachable m) (hx : m.view x = some w) (hw : w.isIter = false)
    (hk : kidsAt w.kids q = some (l ++ t :: r)) (hc : IterCur m x q n (a ++ c :: b)) (hl : a.length = l.length) {y : Var}
    (hxy : x ≠ y) {s : RTree α} (hy : m.view y = some (.tree s)) :
    ∃ m' c', m.act c (.insPrev y) = .ok m' .unit ∧ step m (.insertPrevSib x (.child q l.length) y) = .ok m' .unit ∧
      IterCur m' x q n ((a ++ [c']) ++ c :: b) := by
  obtain ⟨K, M⟩ := Proof.reachable_minv hr
  obtain ⟨hd, C, hK⟩ := hc.atC M hx hk hl
  have hyt : ∃ at', m.env y = some (.tree at') := by
    have hA := M.abs_store.vars y
    cases he : m.env y with
    | none => simp [Machine.view, he] at hy
    | some hd =>
      rw [he] at hA
      obtain ⟨v, e, hv⟩ := hA
      have : m.store.vars y = some (.tree s) := hy
      rw [this] at e
      cases Option.some.inj e
      cases hd <;> simp only [HDen] at hv
      exact ⟨_, rfl⟩
  obtain ⟨s', hys⟩ := hyt
  obtain ⟨h', e, same, hI⟩ := insertPrevSib_ok (C.par.attach M hys hxy) hK
  have hni : hd.isIter = false := by rw [C.par.den.isIter]; exact hw
  refine ⟨⟨h', m.setEnv y none, m.fresh⟩, s', ?_, ?_, ?_⟩
  · simp [Machine.act, hys, Machine.run, e, Machine.ret]
  · simp only [step, Machine.takeTree, hxy, if_false, hys, Machine.onNode, C.par.env, hni, Machine.run, IterCur.locate M C, e,
      Machine.ret]
    rfl
  · have hu := (hc.inv M)
    have hUn : h'.Used n := (same.used n).mpr (C.par.used M)
    have := IterCur.mk' (m' := ⟨h', m.setEnv y none, m.fresh⟩) (x := x) (q := q) (n := n) (hd := hd) hI
      (by simp [Machine.setEnv, upd_apply, hxy, C.par.env]) ((same.used _).mpr (M.hnd x hd C.par.env).used) hUn
      (resolve_upd M.inv C.par.res)
    simpa using this

theorem act_next (hr : Reachable m) (hx : m.view x = some w) (hw : w.isIter = false)
    (hk : kidsAt w.kids q = some (l ++ t :: r)) (hc : IterCur m x q n (a ++ c :: b)) (hl : a.length = l.length) {y : Var}
    (hxy : x ≠ y) {s : RTree α} (hy : m.view y = some (.tree s)) :
    ∃ m' c', m.act c (.insNext y) = .ok m' .unit ∧ step m (.insertNextSib x (.child q l.length) y) = .ok m' .unit ∧
      IterCur m' x q n (a ++ c :: c' :: b) := by
  obtain ⟨K, M⟩ := Proof.reachable_minv hr
  obtain ⟨hd, C, hK⟩ := hc.atC M hx hk hl
  have hyt : ∃ at', m.env y = some (.tree at') := by
    have hA := M.abs_store.vars y
    cases he : m.env y with
    | none => simp [Machine.view, he] at hy
    | some hd =>
      rw [he] at hA
      obtain ⟨v, e, hv⟩ := hA
      have : m.store.vars y = some (.tree s) := hy
      rw [this] at e
      cases Option.some.inj e
      cases hd <;> simp only [HDen] at hv
      exact ⟨_, rfl⟩
  obtain ⟨s', hys⟩ := hyt
  obtain ⟨h', e, same, hI⟩ := insertNextSib_ok (C.par.attach M hys hxy) hK
  have hni : hd.isIter = false := by rw [C.par.den.isIter]; exact hw
  refine ⟨⟨h', m.setEnv y none, m.fresh⟩, s', ?_, ?_, ?_⟩
  · simp [Machine.act, hys, Machine.run, e, Machine.ret]
  · simp only [step, Machine.takeTree, hxy, if_false, hys, Machine.onNode, C.par.env, hni, Machine.run, IterCur.locate M C, e,
      Machine.ret]
    rfl
  · have hUn : h'.Used n := (same.used n).mpr (C.par.used M)
    have := IterCur.mk' (m' := ⟨h', m.setEnv y none, m.fresh⟩) (x := x) (q := q) (n := n) (hd := hd) hI
      (by simp [Machine.setEnv, upd_apply, hxy, C.par.env]) ((same.used _).mpr (M.hnd x hd C.par.env).used) hUn
      (resolve_upd M.inv C.par.res)
    simpa using this

theorem act_set (hr : Reachable m) (hx : m.view x = some w) (hw : w.isIter = false)
    (hk : kidsAt w.kids q = some (l ++ t :: r)) (hc : IterCur m x q n (a ++ c :: b)) (hl : a.length = l.length) {d : α} :
    ∃ m', m.act c (.set d) = .ok m' .unit ∧ step m (.setData x (.child q l.length) d) = .ok m' .unit ∧
      IterCur m' x q n (a ++ c :: b) := by
  obtain ⟨K, M⟩ := Proof.reachable_minv hr
  obtain ⟨hd, C, hK⟩ := hc.atC M hx hk hl
  have hcm : c ∈ K n := by rw [hK]; simp
  obtain ⟨old, hold⟩ := Heap.isVal_iff.mp (M.kv n c hcm)
  obtain ⟨h', e, hI, hS, hU, hval, hup, hlog⟩ := dataMutSet_ok (d := d) M.inv M.st (M.inv.used_of_mem hcm) hold
  have hni : hd.isIter = false := by rw [C.par.den.isIter]; exact hw
  refine ⟨⟨h', m.env, m.fresh⟩, ?_, ?_, ?_⟩
  · simp [Machine.act, Machine.run, e, Machine.ret]
  · simp only [step, Machine.onNode, C.par.env, hni, Machine.run, IterCur.locate M C, e, Machine.ret]
    rfl
  · have := IterCur.mk' (m' := ⟨h', m.env, m.fresh⟩) (x := x) (q := q) (n := n) (hd := hd) hI
      C.par.env ((hU _).mpr (M.hnd x hd C.par.env).used) ((hU n).mpr (C.par.used M)) C.par.res
    rw [hK] at this; exact this

theorem act_detach (hr : Reachable m) (hx : m.view x = some w) (hw : w.isIter = false)
    (hk : kidsAt w.kids q = some (l ++ t :: r)) (hc : IterCur m x q n (a ++ c :: b)) (hl : a.length = l.length) :
    ∃ m', (m.run m.env (detach c) fun c h => m.retVar h m.env (.tree c)) = .ok m' (.var m.fresh) ∧
      step m (.detach x (.child q l.length)) = .ok m' (.var m.fresh) ∧ IterCur m' x q n (a ++ b) := by
  obtain ⟨K, M⟩ := Proof.reachable_minv hr
  obtain ⟨hd, C, hK⟩ := hc.atC M hx hk hl
  have hcm : c ∈ K n := by rw [hK]; simp
  obtain ⟨h', e, same, hup, hI⟩ := detach_ok M.inv hK (M.kv n c hcm)
  have hni : hd.isIter = false := by rw [C.par.den.isIter]; exact hw
  have hxf : x ≠ m.fresh := fresh_ne_of_view hr hx
  refine ⟨⟨h', upd m.env m.fresh (some (.tree c)), m.fresh + 1⟩, ?_, ?_, ?_⟩
  · simp [Machine.run, e, Machine.retVar]
  · simp only [step, Machine.onNode, C.par.env, hni, Machine.run, IterCur.locate M C, e, Machine.retVar]
    rfl
  · have hUn : h'.Used n := (same.used n).mpr (C.par.used M)
    have := IterCur.mk' (m' := ⟨h', upd m.env m.fresh (some (.tree c)), m.fresh + 1⟩) (x := x) (q := q) (n := n) (hd := hd) hI
      (by simp [upd_apply, hxf, C.par.env]) ((same.used _).mpr (M.hnd x hd C.par.env).used) hUn
      (resolve_upd M.inv C.par.res)
    simpa using this

end

/-- The iterator that stands before the last children of a node. -/
theorem RawIter.at_suffix {h : Heap α} {K : Addr → List Addr} (hI : Inv h K) {n : Addr} (hn : h.Used n) {A cs : List Addr}
    (hK : K n = A ++ cs) {it : RawIter} (h1 : it.len = cs.length) (h2 : cs ≠ [] → it.curr = cs.head?) : it.At h cs := by
  refine ⟨h1, h2, fun c hc => (hI.used_of_mem (a := n) (by rw [hK]; simp [hc])).1, ?_⟩
  have hl := hI.l.links n hn
  rw [hK] at hl
  have key : ∀ (A : List Addr) l, Links h.prev h.next l (A ++ cs) none → ∃ l r, Links h.prev h.next l cs r := by
    intro A
    induction A with
    | nil => intro l hl; exact ⟨l, none, hl⟩
    | cons a A ih => intro l hl; exact ih _ hl.2.2
  exact key A none hl

end Trees
