import Verif.Spec.Ident
/-
Specification of opacity: the same program on other items.
-/
namespace Trees
variable {α β : Type}

/-- The same call with the items changed by `g`: items handed over are changed, closures commute with `g`. -/
def Op.Like (g : β → α) : Op β → Op α → Prop
  | .treeNew d, .treeNew d' => g d = d'
  | .forestNew, .forestNew => True
  | .pushFront x p y, .pushFront x' p' y' => x = x' ∧ p = p' ∧ y = y'
  | .pushBack x p y, .pushBack x' p' y' => x = x' ∧ p = p' ∧ y = y'
  | .popFront x p, .popFront x' p' => x = x' ∧ p = p'
  | .popBack x p, .popBack x' p' => x = x' ∧ p = p'
  | .prepend x p y, .prepend x' p' y' => x = x' ∧ p = p' ∧ y = y'
  | .append x p y, .append x' p' y' => x = x' ∧ p = p' ∧ y = y'
  | .insertPrevSib x l y, .insertPrevSib x' l' y' => x = x' ∧ l = l' ∧ y = y'
  | .insertNextSib x l y, .insertNextSib x' l' y' => x = x' ∧ l = l' ∧ y = y'
  | .detach x l, .detach x' l' => x = x' ∧ l = l'
  | .abandon x, .abandon x' => x = x'
  | .setData x l d, .setData x' l' d' => x = x' ∧ l = l' ∧ g d = d'
  | .drop x, .drop x' => x = x'
  | .intoIter x, .intoIter x' => x = x'
  | .iterNext x, .iterNext x' => x = x'
  | .iterLen x, .iterLen x' => x = x'
  | .data x l, .data x' l' => x = x' ∧ l = l'
  | .degree x p, .degree x' p' => x = x' ∧ p = p'
  | .nodeCount x p, .nodeCount x' p' => x = x' ∧ p = p'
  | .hasNoChild x p, .hasNoChild x' p' => x = x' ∧ p = p'
  | .childData x p, .childData x' p' => x = x' ∧ p = p'
  | .frontData x p, .frontData x' p' => x = x' ∧ p = p'
  | .backData x p, .backData x' p' => x = x' ∧ p = p'
  | .mapBfs x l f, .mapBfs x' l' f' => x = x' ∧ l = l' ∧ ∀ i b, g (f i b) = f' i (g b)
  | .mapBfsForest x p f, .mapBfsForest x' p' f' => x = x' ∧ p = p' ∧ ∀ i b, g (f i b) = f' i (g b)
  | .rebuild x f, .rebuild x' f' => x = x' ∧ ∀ i b, g (f i b) = f' i (g b)
  | .bfs x l k, .bfs x' l' k' => x = x' ∧ l = l' ∧ k = k'
  | .bfsChildren x p k, .bfsChildren x' p' k' => x = x' ∧ p = p' ∧ k = k'
  | .intoBfs x k, .intoBfs x' k' => x = x' ∧ k = k'
  | .bfsMut x l k f, .bfsMut x' l' k' f' => x = x' ∧ l = l' ∧ k = k' ∧ ∀ i b, g (f i b) = f' i (g b)
  | .bfsChildrenMut x p k f, .bfsChildrenMut x' p' k' f' => x = x' ∧ p = p' ∧ k = k' ∧ ∀ i b, g (f i b) = f' i (g b)
  | .treeFromTuple t, .treeFromTuple t' => t.map g = t'
  | .forestFromTuple ts, .forestFromTuple ts' => Tup.mapL g ts = ts'
  | _, _ => False

/-- Change the items in a result. -/
def Out.map (g : β → α) : Out β → Out α
  | .unit => .unit
  | .absent => .absent
  | .none => .none
  | .var v => .var v
  | .item d => .item (d.map g)
  | .items ds => .items (ds.map g)
  | .nat n => .nat n
  | .bool b => .bool b
  | .visits a b vs => .visits a b (vs.map (Option.map fun v => (g v.1, v.2)))

/-- Change the items in the outcome of a call. -/
def Outcome.mapOut {σ : Type} (g : β → α) : Outcome σ β → Outcome σ α
  | .ok s o => .ok s (o.map g)
  | .panic s => .panic s
  | .rejected => .rejected
  | .bad => .bad

end Trees
