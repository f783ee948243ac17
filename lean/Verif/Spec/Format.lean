import Verif.Spec.Order
import Verif.Spec.Shared
/-
What `Display` and `Debug` write, piece by piece, for trees whose nodes carry an address.
-/
namespace Trees
variable {α σ : Type}

/-- One piece of output (or, for shared nodes, one look at a node). -/
inductive Piece (α : Type) where
  /-- whatever `T::fmt` writes -/
  | item (d : α)
  | text (s : List Char)
  /-- a pointer in `{:?}` format -/
  | addr (a : Nat)
  /-- the data of the node is borrowed, nothing is written -/
  | look (a : Nat)

namespace RTree

mutual
/-- `Display`: a leaf is its item; otherwise the item, `( `, every child followed by a space, `)`.  `pre` precedes every node. -/
def displayP (pre : Nat → List (Piece α)) : RTree (Nat × α) → List (Piece α)
  | node x [] => pre x.1 ++ [.item x.2]
  | node x (t :: ts) => pre x.1 ++ [.item x.2, .text ['(', ' ']] ++ displayPL pre (t :: ts) ++ [.text [')']]
/-- Each tree followed by a space. -/
def displayPL (pre : Nat → List (Piece α)) : List (RTree (Nat × α)) → List (Piece α)
  | [] => []
  | t :: ts => displayP pre t ++ [.text [' ']] ++ displayPL pre ts
end

mutual
/-- `Debug`: the item, `@`, the address, a space; then, if there are children, `( `, the children, `)`. `ad`: the address shown
for a node. -/
def debugP (pre : Nat → List (Piece α)) (ad : Nat → Nat) : RTree (Nat × α) → List (Piece α)
  | node x [] => pre x.1 ++ [.item x.2, .text ['@'], .addr (ad x.1), .text [' ']]
  | node x (t :: ts) => pre x.1 ++ [.item x.2, .text ['@'], .addr (ad x.1), .text [' '], .text ['(', ' ']] ++ debugPL pre ad (t :: ts) ++ [.text [')']]
/-- The trees one after the other. -/
def debugPL (pre : Nat → List (Piece α)) (ad : Nat → Nat) : List (RTree (Nat × α)) → List (Piece α)
  | [] => []
  | t :: ts => debugP pre ad t ++ debugPL pre ad ts
end

/-- `Display` of a forest. -/
def displayForestP (ts : List (RTree (Nat × α))) : List (Piece α) :=
  match ts with
  | [] => [.text ['(', ')']]
  | _ => .text ['(', ' '] :: displayPL (fun _ => []) ts ++ [.text [')']]

/-- `Debug` of a forest: every child is followed by one more space. -/
def debugForestP (ts : List (RTree (Nat × α))) : List (Piece α) :=
  match ts with
  | [] => [.text ['(', ')']]
  | _ => .text ['(', ' '] :: (ts.flatMap fun t => debugP (fun _ => []) id t ++ [.text [' ']]) ++ [.text [')']]

end RTree

/-- How a writer takes a piece: the new state of the writer and whether it succeeded; `none`: it panics. (For an item: the writer
and `T::fmt` together.) -/
abbrev Writer (α σ : Type) := Piece α → σ → Option (σ × Bool)

/-- Write the pieces in order, stop at the first error or panic. -/
def emit (P : Writer α σ) : List (Piece α) → σ → Option (σ × Bool)
  | [], s => some (s, true)
  | p :: ps, s => match P p s with
    | some (s', true) => emit P ps s'
    | r => r

/-- The characters of a piece: `sh` for items, `ad` for addresses. -/
def Piece.chars (sh : α → List Char) (ad : Nat → List Char) : Piece α → List Char
  | .item d => sh d
  | .text s => s
  | .addr a => ad a
  | .look _ => []

/-- A writer that only ever appends what it is given: all of it if it succeeds, a part if it fails. -/
def Appends (sh : α → List Char) (ad : Nat → List Char) (P : Writer α (List Char)) : Prop :=
  ∀ p s r, P p s = some r → ∃ w, w <+: p.chars sh ad ∧ r.1 = s ++ w ∧ (r.2 = true → w = p.chars sh ad)

/-- A writer for which looking at a node in `lk` panics. -/
def Writer.locking (lk : Nat → Bool) (P : Writer α σ) : Writer α σ
  | .look a, s => if lk a then none else some (s, true)
  | p, s => P p s

end Trees
