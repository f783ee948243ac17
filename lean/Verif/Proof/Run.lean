import Verif.Model.Node
/-
Running straight-line code: one rewriting rule per primitive access.
-/
namespace Trees
variable {α : Type} {h : Heap α} {a b : Addr}

@[simp] theorem getPrev_ok (hl : h.live a = true) : getPrev a h = .ok (h.prev a) h := by
  simp [getPrev, hl]
@[simp] theorem setPrev_ok {v} (hl : h.live a = true) :
    setPrev a v h = .ok () { h with prev := upd h.prev a v } := by
  simp [setPrev, hl]
@[simp] theorem getNext_ok (hl : h.live a = true) : getNext a h = .ok (h.next a) h := by
  simp [getNext, hl]
@[simp] theorem setNext_ok {v} (hl : h.live a = true) :
    setNext a v h = .ok () { h with next := upd h.next a v } := by
  simp [setNext, hl]
@[simp] theorem getHead_ok (hl : h.live a = true) : getHead a h = .ok (h.head a) h := by
  simp [getHead, hl]
@[simp] theorem setHead_ok {v} (hl : h.live a = true) :
    setHead a v h = .ok () { h with head := upd h.head a v } := by
  simp [setHead, hl]
@[simp] theorem getTail_ok (hl : h.live a = true) : getTail a h = .ok (h.tail a) h := by
  simp [getTail, hl]
@[simp] theorem setTail_ok {v} (hl : h.live a = true) :
    setTail a v h = .ok () { h with tail := upd h.tail a v } := by
  simp [setTail, hl]
@[simp] theorem getUp_ok (hl : h.live a = true) : getUp a h = .ok (h.up a) h := by
  simp [getUp, hl]
@[simp] theorem setUp_ok {v} (hl : h.live a = true) :
    setUp a v h = .ok () { h with up := upd h.up a v } := by
  simp [setUp, hl]
@[simp] theorem getSize_ok (hl : h.live a = true) : getSize a h = .ok (h.size a) h := by
  simp [getSize, hl]
@[simp] theorem setSize_ok {v} (hl : h.live a = true) :
    setSize a v h = .ok () { h with size := upd h.size a v } := by
  simp [setSize, hl]
@[simp] theorem getData_ok (hl : h.live a = true) : getData a h = .ok (h.data a) h := by
  simp [getData, hl]
@[simp] theorem setData_ok {v} (hl : h.live a = true) :
    setData a v h = .ok () { h with data := upd h.data a v } := by
  simp [setData, hl]
@[simp] theorem hasNoChild_ok (hl : h.live a = true) : hasNoChild a h = .ok (h.head a).isNone h := by
  simp [hasNoChild, hl]
@[simp] theorem degree_ok (hl : h.live a = true) : degree a h = .ok (h.size a).degree h := by
  simp [degree, hl]
@[simp] theorem isForest_ok (hl : h.live a = true) : isForest a h = .ok (h.data a).isForest h := by
  simp [isForest, hl]
@[simp] theorem front_ok (hl : h.live a = true) : front a h = .ok (h.head a) h := by
  simp [front, hl]
@[simp] theorem back_ok (hl : h.live a = true) : back a h = .ok (h.tail a) h := by
  simp [back, hl]
@[simp] theorem connectNext_ok (hl : h.live a = true) (hb : h.live b = true) :
    connectNext a b h = .ok () { h with next := upd h.next a (some b), prev := upd h.prev b (some a) } := by
  simp [connectNext, hl, hb]
@[simp] theorem treeFromNode_ok (hl : h.live a = true) :
    treeFromNode a h = .ok a { h with up := upd h.up a none } := by
  simp [treeFromNode, hl]
@[simp] theorem nodeCount_ok (hl : h.live a = true) (hf : (h.data a).isForest = false) :
    nodeCount a h = .ok ((h.size a).descendants + 1) h := by
  simp [nodeCount, hl, hf]
theorem nodeCount_forest (hl : h.live a = true) (hf : (h.data a).isForest = true) :
    nodeCount a h = .ok (h.size a).descendants h := by
  simp [nodeCount, hl, hf]

end Trees
