import Verif.Proof.NatBfs
import Verif.Model.Ident
import Verif.Spec.Param
/-
Naturality of construction from tuples and of whole calls.
-/
namespace Trees
set_option linter.unusedSimpArgs false
set_option linter.unusedVariables false
variable {α β γ δ : Type} {C : NCtx β α}

/-! ### Tuples -/

namespace Tup
variable (g : β → α)

mutual
theorem size_map : ∀ t : Tup β, (t.map g).size = t.size
  | .bare d => rfl
  | .tup d ks => by simp only [Tup.map, Tup.size, length_mapL ks, sizeSum_map ks]
theorem sizeSum_map : ∀ ts : List (Tup β), Tup.sizeSum (Tup.mapL g ts) = Tup.sizeSum ts
  | [] => rfl
  | k :: ks => by simp only [Tup.mapL, Tup.sizeSum, size_map k, sizeSum_map ks]
theorem length_mapL : ∀ ts : List (Tup β), (Tup.mapL g ts).length = ts.length
  | [] => rfl
  | k :: ks => by simp only [Tup.mapL, List.length_cons, length_mapL ks]
end

mutual
theorem descendants_map : ∀ (t : Tup β) (n : Nat), (t.map g).descendants n = t.descendants n
  | .bare d, n => rfl
  | .tup d ks, 0 => by simp only [Tup.map, Tup.descendants, length_mapL g ks]
  | .tup d ks, n+1 => by simp only [Tup.map, Tup.descendants, descSum_map ks n]
theorem descSum_map : ∀ (ts : List (Tup β)) (n : Nat), Tup.descSum (Tup.mapL g ts) n = Tup.descSum ts n
  | [], n => rfl
  | k :: ks, n => by simp only [Tup.mapL, Tup.descSum, descendants_map k n, descSum_map ks n]
end

mutual
theorem height_map : ∀ (t : Tup β), (t.map g).height = t.height
  | .bare d => rfl
  | .tup d ks => by simp only [Tup.map, Tup.height, heightMax_map ks]
theorem heightMax_map : ∀ (ts : List (Tup β)), Tup.heightMax (Tup.mapL g ts) = Tup.heightMax ts
  | [] => rfl
  | k :: ks => by simp only [Tup.mapL, Tup.heightMax, height_map k, heightMax_map ks]
end

theorem isLeaf_map : ∀ (t : Tup β), (t.map g).isLeaf = t.isLeaf
  | .bare d => rfl
  | .tup d [] => rfl
  | .tup d (k :: ks) => rfl

theorem getLast_mapL : ∀ (ts : List (Tup β)), (Tup.mapL g ts).getLast? = ts.getLast?.map (Tup.map g)
  | [] => rfl
  | [k] => rfl
  | k :: k' :: ks => by
    have := getLast_mapL (k' :: ks)
    simp only [Tup.mapL, List.getLast?_cons_cons] at this ⊢
    exact this

theorem leafLast_map : ∀ (t : Tup β), (t.map g).leafLast = t.leafLast
  | .bare d => rfl
  | .tup d ks => by
    simp only [Tup.map, Tup.leafLast, Tup.elems, getLast_mapL]
    cases ks.getLast? with
    | none => rfl
    | some k => exact isLeaf_map g k

theorem isEmpty_mapL : ∀ (ts : List (Tup β)), (Tup.mapL g ts).isEmpty = ts.isEmpty
  | [] => rfl
  | k :: ks => rfl

mutual
theorem good_map : ∀ (t : Tup β), (t.map g).good = t.good
  | .bare d => rfl
  | .tup d ks => by simp only [Tup.map, Tup.good, goodL_map ks]
theorem goodL_map : ∀ (ts : List (Tup β)), Tup.goodL (Tup.mapL g ts) = Tup.goodL ts
  | [] => rfl
  | k :: ks => by simp only [Tup.mapL, Tup.goodL, good_map k, goodL_map ks, isLeaf_map, leafLast_map, isEmpty_mapL]
end
mutual
theorem map_same : ∀ t : Tup α, t.map id = t
  | .bare d => rfl
  | .tup d ks => by simp only [Tup.map, mapL_same ks]; rfl
theorem mapL_same : ∀ ts : List (Tup α), Tup.mapL id ts = ts
  | [] => rfl
  | k :: ks => by simp only [Tup.mapL, map_same k, mapL_same ks]
end
end Tup

/-- Change the item of a visit. -/
def Visit.map (g : β → α) : Visit β → Visit α
  | .branch d => .branch (g d)
  | .leaf d => .leaf (g d)
  | .frame => .frame

namespace Tup
variable (g : β → α)
mutual
theorem pre_map : ∀ (t : Tup β), (t.map g).preorderWithSizeHint = t.preorderWithSizeHint.map fun q => (q.1.map g, q.2)
  | .bare d => rfl
  | .tup d ks => by
    have h := size_map g (.tup d ks)
    simp only [Tup.map] at h
    simp only [Tup.map, Tup.preorderWithSizeHint, h, preL_map ks]
    split <;> simp [Visit.map]
theorem preL_map : ∀ (ts : List (Tup β)), Tup.preorderWithSizeHintL (Tup.mapL g ts) =
    (Tup.preorderWithSizeHintL ts).map fun q => (q.1.map g, q.2)
  | [] => rfl
  | k :: ks => by simp only [Tup.mapL, Tup.preorderWithSizeHintL, pre_map k, preL_map ks, List.map_append]
end
end Tup

theorem nat_idx (xs : List Nat) (i : Nat) : LSim C Eq (idx xs i) (idx xs i) := by unfold idx; nat
macro_rules | `(tactic| nat1) => `(tactic| with_reducible exact nat_idx _ _)
theorem nat_bump (xs : List Nat) (i : Nat) : LSim C Eq (bump xs i) (bump xs i) := by unfold bump; nat
macro_rules | `(tactic| nat1) => `(tactic| with_reducible exact nat_bump _ _)

section
variable {u : δ → β} {w : δ → α} (hup : ∀ d, CRel C (u d) (w d))
include hup

theorem nat_placeVisit (g : Bool) {v : Nat} (hv : C.v0 ≤ v) (c : Cursor) (e : Visit δ) (s : Size) :
    LSim C Eq (placeVisit g v c (e.map u) s) (placeVisit g v c (e.map w) s) := by
  unfold placeVisit
  cases e with
  | branch d =>
    exact (nat_idx _ _).bindEq fun _ => (nat_appendChild hv _ _ (hup d) _).bindEq fun _ => (nat_idx _ _).bindEq fun _ => .pureEq _
  | leaf d =>
    exact (nat_idx _ _).bindEq fun _ => (nat_appendChild hv _ _ (hup d) _).bindEq fun _ => (nat_bump _ _).bindEq fun _ => .pureEq _
  | frame => simp only [Visit.map]; nat

theorem nat_placeAll (g : Bool) {v : Nat} (hv : C.v0 ≤ v) : ∀ (ws : List (Visit δ × Size)) (c : Cursor),
    LSim C Eq (placeAll g v c (ws.map fun q => (q.1.map u, q.2))) (placeAll g v c (ws.map fun q => (q.1.map w, q.2))) := by
  intro ws
  induction ws with
  | nil => intro c; exact .pureEq _
  | cons e ws ih => intro c; exact (nat_placeVisit hup g hv c e.1 e.2).bindEq fun _ => ih _

theorem nat_constructTree {v : Nat} (hv : C.v0 ≤ v) (t : Tup δ) :
    LSim C Eq (constructTree v (t.map u)) (constructTree v (t.map w)) := by
  unfold constructTree
  have e : (t.map u).descendants = t.descendants := by funext n; exact Tup.descendants_map u t n
  have e' : (t.map w).descendants = t.descendants := by funext n; exact Tup.descendants_map w t n
  simp only [Tup.height_map, e, e', Tup.pre_map]
  cases t.preorderWithSizeHint with
  | nil => exact .pureEq _
  | cons q rest =>
    obtain ⟨e, s⟩ := q
    simp only [List.map_cons]
    cases e with
    | frame => exact .throw _
    | branch d =>
      exact (nat_makePiledNode hv _ _ (hup d) _).bindEq fun _ => (nat_placeAll hup _ hv _ _).bindEq fun _ => .pureEq _
    | leaf d =>
      exact (nat_makePiledNode hv _ _ (hup d) _).bindEq fun _ => (nat_placeAll hup _ hv _ _).bindEq fun _ => .pureEq _

theorem nat_treeFromTuple (t : Tup δ) : LSim C Eq (treeFromTuple (t.map u)) (treeFromTuple (t.map w)) := by
  unfold treeFromTuple
  rw [Tup.size_map, Tup.size_map]
  refine (nat_newVec _).bind fun v v' hv => ?_
  obtain ⟨rfl, hv⟩ := hv
  exact (nat_constructTree hup hv t).bindEq fun _ => (nat_vecNodeEq _ _).bindEq fun _ => nat_treeFromNode _

theorem nat_forestFromTuple (ts : List (Tup δ)) : LSim C Eq (forestFromTuple (Tup.mapL u ts)) (forestFromTuple (Tup.mapL w ts)) := by
  unfold forestFromTuple
  have e : forestSize (Tup.mapL u ts) = forestSize (Tup.mapL w ts) := by simp [forestSize, Tup.length_mapL, Tup.sizeSum_map]
  rw [e]
  refine (nat_newVec _).bind fun v v' hv => ?_
  obtain ⟨rfl, hv⟩ := hv
  refine LSim.bindEq ?_ fun _ => nat_vecNodeEq _ _
  unfold constructForest
  have e1 : forestHeight (Tup.mapL u ts) = forestHeight (Tup.mapL w ts) := by simp [forestHeight, Tup.heightMax_map]
  have e2 : forestDescendants (Tup.mapL u ts) = forestDescendants (Tup.mapL w ts) := by
    funext n; cases n <;> simp [forestDescendants, Tup.length_mapL, Tup.descSum_map]
  rw [e, e1, e2, Tup.preL_map, Tup.preL_map]
  exact (nat_vecMakeNode hv _ _ (d := .piledNone v) ⟨rfl, by simp [Data.val?]⟩ _).bindEq fun _ =>
    (nat_placeAll hup _ hv _ _).bindEq fun _ => .pureEq _
end

/-! ### Whole calls -/

/-- Related machines. -/
structure MRel (C : NCtx β α) (m : Machine β) (m' : Machine α) : Prop where
  heap : LRel C m.heap m'.heap
  env : m.env = m'.env
  fresh : m.fresh = m'.fresh

/-- Related outcomes. -/
def ORelN (C : NCtx β α) : Outcome (Machine β) β → Outcome (Machine α) α → Prop
  | .ok m o, .ok m' o' => MRel C m m' ∧ o.map C.g = o'
  | .panic m, .panic m' => MRel C m m'
  | .rejected, .rejected => True
  | .bad, .bad => True
  | _, _ => False

section
variable {m : Machine β} {m' : Machine α} (r : MRel C m m')
include r

theorem ORelN.run {R : γ → δ → Prop} {e e' : Var → Option Handle} (he : e = e') {c : M β γ} {c' : M α δ} (hc : LSim C R c c')
    {k : γ → Heap β → Outcome (Machine β) β} {k' : δ → Heap α → Outcome (Machine α) α}
    (hk : ∀ b b' L H, R b b' → LRel C L H → ORelN C (k b L) (k' b' H)) : ORelN C (m.run e c k) (m'.run e' c' k') := by
  have h := hc _ _ r.heap
  simp only [Machine.run]
  revert h
  generalize c m.heap = q
  generalize c' m'.heap = q'
  intro h
  match q, q', h with
  | .ok b L, .ok b' H, h => exact hk _ _ _ _ h.1 h.2
  | .err er L, .err er' H, h =>
    obtain ⟨rfl, h⟩ := h
    cases er with
    | panic => exact ⟨h, he, r.fresh⟩
    | ub => trivial
    | fuel => trivial
    | alloc => trivial

theorem ORelN.ok {e e' : Var → Option Handle} (he : e = e') {L : Heap β} {H : Heap α} (h : LRel C L H) {o : Out β} {o' : Out α}
    (ho : o.map C.g = o') : ORelN C (m.ret L e o) (m'.ret H e' o') := ⟨⟨h, he, r.fresh⟩, ho⟩

theorem ORelN.var {e e' : Var → Option Handle} (he : e = e') {L : Heap β} {H : Heap α} (h : LRel C L H) (hd : Handle) :
    ORelN C (m.retVar L e hd) (m'.retVar H e' hd) := by
  refine ⟨⟨h, ?_, ?_⟩, ?_⟩
  · simp only [he, r.fresh]
  · simp only [r.fresh]
  · simp only [Out.map, r.fresh]

theorem ORelN.pop {L : Heap β} {H : Heap α} (h : LRel C L H) (o : Option Addr) :
    ORelN C (m.retPop L o) (m'.retPop H o) := by
  cases o with
  | none => exact .ok r r.env h rfl
  | some c => exact .var r r.env h _

theorem ORelN.onKids {x : Var} {p : Path} {k : Handle → Addr → Outcome (Machine β) β}
    {k' : Handle → Addr → Outcome (Machine α) α} (hk : ∀ hd n, ORelN C (k hd n) (k' hd n)) :
    ORelN C (m.onKids x p k) (m'.onKids x p k') := by
  simp only [Machine.onKids]
  rw [r.env]
  cases m'.env x with
  | none => trivial
  | some hd =>
    dsimp only
    split
    · trivial
    · refine ORelN.run r rfl (nat_locate p hd.addr) fun b b' L H e h => ?_
      subst e
      cases b with
      | none => exact ⟨r, rfl⟩
      | some n => exact hk hd n

theorem ORelN.onNode {x : Var} {l : Loc} {k : Addr → Outcome (Machine β) β}
    {k' : Addr → Outcome (Machine α) α} (hk : ∀ n, ORelN C (k n) (k' n)) :
    ORelN C (m.onNode x l k) (m'.onNode x l k') := by
  simp only [Machine.onNode]
  rw [r.env]
  cases m'.env x with
  | none => trivial
  | some hd =>
    dsimp only
    split
    · trivial
    · cases l with
      | root => cases hd with
        | tree r => exact hk r
        | forest r => trivial
        | iter r => trivial
      | child q i =>
        refine ORelN.run r rfl (nat_locate _ hd.addr) fun b b' L H e h => ?_
        subst e
        cases b with
        | none => exact ⟨r, rfl⟩
        | some n => exact hk n

theorem ORelN.takeTree {x y : Var} {k : Addr → Outcome (Machine β) β} {k' : Addr → Outcome (Machine α) α}
    (hk : ∀ n, ORelN C (k n) (k' n)) : ORelN C (m.takeTree x y k) (m'.takeTree x y k') := by
  simp only [Machine.takeTree]
  rw [r.env]
  split
  · trivial
  · cases m'.env y with
    | none => trivial
    | some hd => cases hd with
      | tree n => exact hk n
      | forest n => trivial
      | iter n => trivial

theorem ORelN.takeForest {x y : Var} {k : Addr → Outcome (Machine β) β} {k' : Addr → Outcome (Machine α) α}
    (hk : ∀ n, ORelN C (k n) (k' n)) : ORelN C (m.takeForest x y k) (m'.takeForest x y k') := by
  simp only [Machine.takeForest]
  rw [r.env]
  split
  · trivial
  · cases m'.env y with
    | none => trivial
    | some hd => cases hd with
      | tree n => trivial
      | forest n => exact hk n
      | iter n => trivial

theorem MRel.setEnv (x : Var) (v : Option Handle) : m.setEnv x v = m'.setEnv x v := by
  simp only [Machine.setEnv, r.env]
end

theorem VisL.out {q : Size × List (Option (β × Size))} {q' : Size × List (Option (α × Size))} (h : RunRel C q q') :
    (outVisits q).map C.g = outVisits q' := by
  obtain ⟨s, vs⟩ := q
  obtain ⟨s', vs'⟩ := q'
  obtain ⟨h1, h2⟩ := h
  simp only at h1 h2
  subst h1
  simp only [outVisits, Out.map, List.map_map]
  congr 1
  induction h2 with
  | nil => rfl
  | cons hv _ ih =>
    rename_i v v' _ _ _
    simp only [List.map_cons, ih]
    congr 1
    cases v <;> cases v' <;> simp only [VisRel] at hv
    · rfl
    · rename_i w w'
      simp only [Function.comp, Option.map_some, flatVisit]
      rw [← hv.2, ← show C.g w.1 = w'.1 from hv.1]

/-- Related calls. -/
def OpRel (C : NCtx β α) : Op β → Op α → Prop
  | .treeNew d, .treeNew d' => CRel C d d'
  | .forestNew, .forestNew => True
  | .pushFront x p y, .pushFront x' p' y' => x = x' ∧ p = p' ∧ y = y'
  | .pushBack x p y, .pushBack x' p' y' => x = x' ∧ p = p' ∧ y = y'
  | .popFront x p, .popFront x' p' => x = x' ∧ p = p'
  | .popBack x p, .popBack x' p' => x = x' ∧ p = p'
  | .prepend x p y, .prepend x' p' y' => x = x' ∧ p = p' ∧ y = y'
  | .append x p y, .append x' p' y' => x = x' ∧ p = p' ∧ y = y'
  | .insertPrevSib x l y, .insertPrevSib x' l' y' => x = x' ∧ l = l' ∧ y = y'
  | .insertNextSib x l y, .insertNextSib x' l' y' => x = x' ∧ l = l' ∧ y = y'
  | .detach x l, .detach x' l' => x = x' ∧ l = l'
  | .abandon x, .abandon x' => x = x' ∧ ∀ a b, C.P a b → C.V b
  | .setData x l d, .setData x' l' d' => x = x' ∧ l = l' ∧ C.g d = d' ∧ ∀ a, C.P a d
  | .drop x, .drop x' => x = x'
  | .intoIter x, .intoIter x' => x = x'
  | .iterNext x, .iterNext x' => x = x'
  | .iterLen x, .iterLen x' => x = x'
  | .data x l, .data x' l' => x = x' ∧ l = l'
  | .degree x p, .degree x' p' => x = x' ∧ p = p'
  | .nodeCount x p, .nodeCount x' p' => x = x' ∧ p = p'
  | .hasNoChild x p, .hasNoChild x' p' => x = x' ∧ p = p'
  | .childData x p, .childData x' p' => x = x' ∧ p = p'
  | .frontData x p, .frontData x' p' => x = x' ∧ p = p'
  | .backData x p, .backData x' p' => x = x' ∧ p = p'
  | .mapBfs x l f, .mapBfs x' l' f' => x = x' ∧ l = l' ∧ FRel C f f'
  | .mapBfsForest x p f, .mapBfsForest x' p' f' => x = x' ∧ p = p' ∧ FRel C f f'
  | .rebuild x f, .rebuild x' f' => x = x' ∧ FRel C f f'
  | .bfs x l k, .bfs x' l' k' => x = x' ∧ l = l' ∧ k = k'
  | .bfsChildren x p k, .bfsChildren x' p' k' => x = x' ∧ p = p' ∧ k = k'
  | .intoBfs x k, .intoBfs x' k' => x = x' ∧ k = k'
  | .bfsMut x l k f, .bfsMut x' l' k' f' => x = x' ∧ l = l' ∧ k = k' ∧ ∀ a i b, C.P a b → IRel C a (f i b) (f' i (C.g b))
  | .bfsChildrenMut x p k f, .bfsChildrenMut x' p' k' f' =>
      x = x' ∧ p = p' ∧ k = k' ∧ ∀ a i b, C.P a b → IRel C a (f i b) (f' i (C.g b))
  | .treeFromTuple t, .treeFromTuple t' => ∃ (δ : Type) (u : δ → β) (w : δ → α) (t0 : Tup δ), (∀ d, CRel C (u d) (w d)) ∧ t = t0.map u ∧ t' = t0.map w
  | .forestFromTuple ts, .forestFromTuple ts' => ∃ (δ : Type) (u : δ → β) (w : δ → α) (t0 : List (Tup δ)), (∀ d, CRel C (u d) (w d)) ∧ ts = Tup.mapL u t0 ∧ ts' = Tup.mapL w t0
  | _, _ => False

theorem nat_abandon (h : ∀ a b, C.P a b → C.V b) (t : Addr) : LSim C Eq (abandon t) (abandon t) := by
  unfold abandon
  refine (nat_getData t).bind fun x x' hx => ?_
  obtain ⟨rfl, hx⟩ := hx
  cases x with
  | none => exact .throw _
  | scatteredNone o => exact .throw _
  | piledNone o => exact .throw _
  | scattered b o =>
    refine (nat_setData ⟨rfl, by simp [Data.val?]⟩).bindEq fun _ => (nat_makeNode rfl ?_).bindEq fun _ => .pureEq _
    intro y hy; obtain rfl := Option.some.inj hy; exact h _ _ (hx b rfl)
  | piled b o =>
    refine (nat_setData ⟨rfl, by simp [Data.val?]⟩).bindEq fun _ => (nat_makeNode rfl ?_).bindEq fun _ => .pureEq _
    intro y hy; obtain rfl := Option.some.inj hy; exact h _ _ (hx b rfl)

theorem forall2_items {ds : List β} {ds' : List α} (h : List.Forall₂ (GRel C) ds ds') : ds.map C.g = ds' := by
  induction h with
  | nil => rfl
  | cons h1 _ ih => simp only [List.map_cons, ih]; rw [show C.g _ = _ from h1]

/-- Related calls have related outcomes. -/
theorem nat_step {m : Machine β} {m' : Machine α} (r : MRel C m m') {op : Op β} {op' : Op α} (h : OpRel C op op') :
    ORelN C (step m op) (step m' op') := by
  have re := r.env
  cases op <;> cases op' <;> simp only [OpRel] at h
  case treeNew.treeNew =>
    simp only [step]
    refine .run r re (nat_treeNew h) fun b b' L H e l => ?_
    subst e; exact .var r re l _
  case forestNew.forestNew =>
    simp only [step]
    refine .run r re nat_forestNew fun b b' L H e l => ?_
    subst e; exact .var r re l _
  case pushFront.pushFront =>
    obtain ⟨rfl, rfl, rfl⟩ := h
    exact .takeTree r fun t => .onKids r fun _ n => .run r (r.setEnv _ _) (nat_pushFront _ _) fun _ _ _ _ _ l =>
      .ok r (r.setEnv _ _) l rfl
  case pushBack.pushBack =>
    obtain ⟨rfl, rfl, rfl⟩ := h
    exact .takeTree r fun t => .onKids r fun _ n => .run r (r.setEnv _ _) (nat_pushBack _ _) fun _ _ _ _ _ l =>
      .ok r (r.setEnv _ _) l rfl
  case popFront.popFront =>
    obtain ⟨rfl, rfl⟩ := h
    exact .onKids r fun _ n => .run r re (nat_popFront _) fun b b' _ _ e l => by subst e; exact .pop r l _
  case popBack.popBack =>
    obtain ⟨rfl, rfl⟩ := h
    exact .onKids r fun _ n => .run r re (nat_popBack _) fun b b' _ _ e l => by subst e; exact .pop r l _
  case prepend.prepend =>
    obtain ⟨rfl, rfl, rfl⟩ := h
    exact .takeForest r fun t => .onKids r fun _ n => .run r (r.setEnv _ _) (nat_prepend _ _) fun _ _ _ _ _ l =>
      .ok r (r.setEnv _ _) l rfl
  case append.append =>
    obtain ⟨rfl, rfl, rfl⟩ := h
    exact .takeForest r fun t => .onKids r fun _ n => .run r (r.setEnv _ _) (nat_append _ _) fun _ _ _ _ _ l =>
      .ok r (r.setEnv _ _) l rfl
  case insertPrevSib.insertPrevSib =>
    obtain ⟨rfl, rfl, rfl⟩ := h
    exact .takeTree r fun t => .onNode r fun n => .run r (r.setEnv _ _) (nat_insertPrevSib _ _) fun _ _ _ _ _ l =>
      .ok r (r.setEnv _ _) l rfl
  case insertNextSib.insertNextSib =>
    obtain ⟨rfl, rfl, rfl⟩ := h
    exact .takeTree r fun t => .onNode r fun n => .run r (r.setEnv _ _) (nat_insertNextSib _ _) fun _ _ _ _ _ l =>
      .ok r (r.setEnv _ _) l rfl
  case detach.detach =>
    obtain ⟨rfl, rfl⟩ := h
    exact .onNode r fun n => .run r re (nat_detach _) fun b b' _ _ e l => by subst e; exact .var r re l _
  case abandon.abandon =>
    obtain ⟨rfl, hV⟩ := h
    simp only [step]
    rw [re]
    split
    · refine .run r rfl (nat_abandon hV _) fun b b' _ _ e l => ?_
      subst e; exact .var r (r.setEnv _ _) l _
    · trivial
  case setData.setData =>
    obtain ⟨rfl, rfl, h1, h2⟩ := h
    exact .onNode r fun n => .run r re (nat_dataMutSet ⟨h1, h2 n⟩) fun _ _ _ _ _ l => .ok r re l rfl
  case drop.drop =>
    subst h
    simp only [step]
    rw [re]
    cases m'.env _ with
    | none => trivial
    | some hd => cases hd with
      | iter f => exact .run r (r.setEnv _ _) (nat_intoIterDrop _) fun _ _ _ _ _ l => .ok r (r.setEnv _ _) l rfl
      | tree f => exact .run r (r.setEnv _ _) (nat_dropRoot _) fun _ _ _ _ _ l => .ok r (r.setEnv _ _) l rfl
      | forest f => exact .run r (r.setEnv _ _) (nat_dropRoot _) fun _ _ _ _ _ l => .ok r (r.setEnv _ _) l rfl
  case intoIter.intoIter =>
    subst h
    simp only [step]
    rw [re]
    cases m'.env _ with
    | none => trivial
    | some hd => cases hd with
      | iter f => trivial
      | tree f => exact .run r (r.setEnv _ _) (nat_treeIntoIter _) fun b b' _ _ e l => by subst e; exact .var r (r.setEnv _ _) l _
      | forest f => exact .var r (r.setEnv _ _) r.heap _
  case iterNext.iterNext =>
    subst h
    simp only [step]
    rw [re]
    cases m'.env _ with
    | none => trivial
    | some hd => cases hd with
      | iter f =>
        refine .run r rfl (nat_popFront _) fun b b' _ _ e l => ?_
        subst e; exact .pop r l _
      | tree f => trivial
      | forest f => trivial
  case iterLen.iterLen =>
    subst h
    simp only [step]
    rw [re]
    cases m'.env _ with
    | none => trivial
    | some hd => cases hd with
      | iter f =>
        refine .run r rfl (nat_degree _) fun b b' _ _ e l => ?_
        subst e; exact .ok r rfl l rfl
      | tree f => trivial
      | forest f => trivial
  case data.data =>
    obtain ⟨rfl, rfl⟩ := h
    exact .onNode r fun n => .run r re (nat_dataRef _) fun b b' _ _ e l => .ok r re l (by simp [Out.map, e.1])
  case degree.degree =>
    obtain ⟨rfl, rfl⟩ := h
    exact .onKids r fun _ n => .run r re (nat_degree _) fun b b' _ _ e l => by subst e; exact .ok r re l rfl
  case nodeCount.nodeCount =>
    obtain ⟨rfl, rfl⟩ := h
    exact .onKids r fun _ n => .run r re (nat_nodeCount _) fun b b' _ _ e l => by subst e; exact .ok r re l rfl
  case hasNoChild.hasNoChild =>
    obtain ⟨rfl, rfl⟩ := h
    exact .onKids r fun _ n => .run r re (nat_hasNoChild _) fun b b' _ _ e l => by subst e; exact .ok r re l rfl
  case childData.childData =>
    obtain ⟨rfl, rfl⟩ := h
    refine .onKids r fun _ n => .run r re (R := List.Forall₂ (GRel C)) ?_ fun b b' _ _ e l => .ok r re l ?_
    · exact (nat_children n).bindEq fun cs => nat_readMany (fun a => (nat_dataRef a).mono fun _ _ h => h.1) cs
    · simp only [Out.map, forall2_items e]
  case frontData.frontData =>
    obtain ⟨rfl, rfl⟩ := h
    refine .onKids r fun _ n => .run r re (R := fun o o' => o.map C.g = o') ?_ fun b b' _ _ e l => .ok r re l ?_
    · refine (nat_front n).bindEq fun o => ?_
      cases o with
      | none => exact .pure rfl
      | some c => exact (nat_dataRef c).bind fun d d' h => .pure (by simp [h.1])
    · simp only [Out.map, e]
  case backData.backData =>
    obtain ⟨rfl, rfl⟩ := h
    refine .onKids r fun _ n => .run r re (R := fun o o' => o.map C.g = o') ?_ fun b b' _ _ e l => .ok r re l ?_
    · refine (nat_back n).bindEq fun o => ?_
      cases o with
      | none => exact .pure rfl
      | some c => exact (nat_dataRef c).bind fun d d' h => .pure (by simp [h.1])
    · simp only [Out.map, e]
  case mapBfs.mapBfs =>
    obtain ⟨rfl, rfl, hf⟩ := h
    exact .onNode r fun n => .run r re (nat_mapBfs hf _) fun b b' _ _ e l => by subst e; exact .var r re l _
  case mapBfsForest.mapBfsForest =>
    obtain ⟨rfl, rfl, hf⟩ := h
    exact .onKids r fun _ n => .run r re (nat_mapBfsForest hf _) fun b b' _ _ e l => by subst e; exact .var r re l _
  case rebuild.rebuild =>
    obtain ⟨rfl, hf⟩ := h
    simp only [step]
    rw [re]
    cases m'.env _ with
    | none => trivial
    | some hd => cases hd with
      | iter f => trivial
      | tree f => exact .run r (r.setEnv _ _) (nat_rebuildTree hf _) fun b b' _ _ e l => by subst e; exact .var r (r.setEnv _ _) l _
      | forest f => exact .run r (r.setEnv _ _) (nat_rebuildForest hf _) fun b b' _ _ e l => by subst e; exact .var r (r.setEnv _ _) l _
  case bfs.bfs =>
    obtain ⟨rfl, rfl, rfl⟩ := h
    exact .onNode r fun n => .run r re (nat_bfsRun _ _) fun b b' _ _ e l => .ok r re l (VisL.out e)
  case bfsChildren.bfsChildren =>
    obtain ⟨rfl, rfl, rfl⟩ := h
    exact .onKids r fun _ n => .run r re (nat_bfsChildrenRun _ _) fun b b' _ _ e l => .ok r re l (VisL.out e)
  case intoBfs.intoBfs =>
    obtain ⟨rfl, rfl⟩ := h
    simp only [step]
    rw [re]
    cases m'.env _ with
    | none => trivial
    | some hd => cases hd with
      | iter f => trivial
      | tree f => exact .run r (r.setEnv _ _) (nat_intoBfsTreeRun _ _) fun b b' _ _ e l => .ok r (r.setEnv _ _) l (VisL.out e)
      | forest f => exact .run r (r.setEnv _ _) (nat_intoBfsForestRun _ _) fun b b' _ _ e l => .ok r (r.setEnv _ _) l (VisL.out e)
  case bfsMut.bfsMut =>
    obtain ⟨rfl, rfl, rfl, hf⟩ := h
    exact .onNode r fun n => .run r re (nat_bfsMutRun hf _ _) fun b b' _ _ e l => .ok r re l (VisL.out e)
  case bfsChildrenMut.bfsChildrenMut =>
    obtain ⟨rfl, rfl, rfl, hf⟩ := h
    exact .onKids r fun _ n => .run r re (nat_bfsChildrenMutRun hf _ _) fun b b' _ _ e l => .ok r re l (VisL.out e)
  case treeFromTuple.treeFromTuple =>
    obtain ⟨δ, u, w, t0, hup, rfl, rfl⟩ := h
    simp only [step, Tup.good_map]
    split
    · exact .run r re (nat_treeFromTuple hup _) fun b b' _ _ e l => by subst e; exact .var r re l _
    · trivial
  case forestFromTuple.forestFromTuple =>
    obtain ⟨δ, u, w, t0, hup, rfl, rfl⟩ := h
    simp only [step, Tup.goodL_map]
    split
    · exact .run r re (nat_forestFromTuple hup _) fun b b' _ _ e l => by subst e; exact .var r re l _
    · trivial

end Trees
