# Formal model of oooutlk/trees in Lean 4

## 1. Approach

The crate is a pointer structure (`prev/next/head/tail/up` raw pointers, cached sizes, reference counts, contiguous
`NodeVec` blocks).  The model is an explicit **heap machine**: every function of the crate becomes a program in a small
state/error monad over an explicit heap, written line by line after the Rust text.  Everything observable is then
*proved* to coincide with a tiny specification that knows nothing about pointers: rose trees
(`RTree α = node data [children]`) held in variables.

Layers (directory `lean/Verif`):

* `Spec/` – rose trees, paths, level order, Euler tour, display grammar, comparison, nested tuples, the store of values
  and the specification step `specStep`.  No heap, no addresses. (`Spec/Shared.lean`: trees whose nodes carry an
  identity, and what an update "at node `a`" does to such a tree.)
* `Model/` – the heap, the monad and the crate's functions, each definition citing `/repo/src/*.rs` lines.
* `Proof/` – invariants and helper lemmas. Nothing there needs to be read to understand a property.
* `Props/` – the property theorems (one file per group of properties), each next to a case (`example`) showing that a
  concrete, non-trivial state meets the hypotheses. **These are the statements to read.** Theorem names start with the
  property id (`c05_detach`).

### Heap and errors (`Model/Heap.lean`)
Structure of arrays indexed by addresses (`Nat`, never reused): `live`, `prev`, `next`, `head`, `tail`, `up`, `size`,
`data`, `count` (strong count of `Rc` / `Shared`), `borrow` (RefCell flag), the `NodeVec` table, allocation counters and
the log of run destructors of user data.  Every dereference checks `live`; accessing dead memory is the error `ub`
(also: freeing twice, using a released block, an index outside of a block).  `unwrap` on `None`, `unreachable!`, failed
`assert!`, integer underflow and RefCell conflicts are the error `panic`.  Unbounded loops (`while`, `loop`, recursion)
take fuel computed from the heap; running out is the error `fuel`.  The theorems show that `ub` and `fuel` never happen
(except in the refuted properties, where they are exhibited), i.e. memory safety and termination are part of the claims.

### Machines
* `Model/Machine.lean`, `step`: a client program is any sequence of calls `Op`; variables hold `Tree`, `Forest`,
  `IntoIter` values (root addresses).  A call on a borrowed node names the node by variable + path, which is how a
  `&Node`/`Pin<&mut Node>` is reached by `iter().nth(i)` and friends.  Outcomes: `ok`, `panic` (with the state unwinding
  leaves), `rejected` (ill-typed or use-after-move: does not compile), `bad` (`ub`/`fuel`).
* `Model/Rc.lean`, `rstep`: adds `RcNode`, `WeakNode`, `IterRc`, `Ref`, `RefMut` values with counts, borrow flags,
  unwinding; contains all of `step`.
* `Model/Walk.lean`: cursor sessions on a tree/forest.  `Model/IterMut.lean`: loops over `iter_mut()` whose body
  restructures the list.  `Model/Crash.lean`, `cstep`: `step` plus constructions whose closure panics at some call;
  programs catch the panic and go on.  `Model/Tuple.lean`: nested tuples as values, the visitors and `construct_tree/forest`.

### Main invariants (proof side)
`Inv h K`: a ghost child function `K : Addr → List Addr` describes the shape; for every used node `head/tail` are the
ends of `K a`, `prev/next` chain `K a`, `up` of each child is `a`, `size` is exact, roots have no links, a rank decreases
along `K`.  `SInv`: owners are right, a block's `ref_cnt` is the number of its used slots, blocks are disjoint.
`RInv`/`GInv`/`SI`: with handles, the count of a node is the number of its handles plus one if it has a parent or an
exclusive owner; borrow flags are the numbers of live guards; etc.  All calls preserve these and commute with the
abstraction to rose trees (`c10_step`) or to identity-carrying rose trees (`shared_*`, `c37_*`).

## 2. Properties: model, proof, status

| id | modelled by | proof | status |
|----|-------------|-------|--------|
| C01–C05, C11, C12, C40 | `pushFront … detach`, `abandon`, `dataMut` on the heap, machine step | step refinement: `abs` commutes with list surgery on rose trees | proved |
| C06, C07, C08 | `degree`, `nodeCount`, `parent`, raw counted iterators | consequences of `Inv` on every reachable state | proved |
| C09 | `iter_mut` cursor interleaved with sibling operations | induction on remaining children | proved |
| C10 | exclusive machine | forward simulation for all op sequences | proved |
| C13, C14, C15 | `IntoIter`, `Drop`, `drop_node`, `decr_ref` | structural induction; destructor log = postorder; block invariant | proved |
| C16, C17 | tuple visitors + `construct_tree/forest` | **false of the code** for some nestings: concrete witness, and an exact characterisation (`Tup.good`) of the nestings that work | partial + refutation |
| C18–C23 | `Splitted::next`, `From<BfsTree/BfsForest>`, owning/mutable variants | queue induction against the level order spec | proved |
| C24–C26, C41 | `Walk` cursor | simulation against Euler tour positions | proved |
| C27 | `Walk` cursor after a failed jump | **false**: `get()` panics (general theorem + witness); what still works is proved | partial + refutation |
| C28–C31 | `eq/cmp/partial_cmp/hash/fmt` over the heap | induction over the represented tree; parser for Display | proved |
| C32 | 24 operator impls | composition of refined operations | proved |
| C33 | tuple visitors as functions of the nested tuple | structural induction; `postorder_with_size_hint` **false**: witness | partial + refutation |
| C34, C37, C38, C39 | Rc machine with handles, counts, borrows, guards | counting invariant, identity-carrying trees; for histories outside of the defects C35/C36/C44 (`SReachable`) | proved |
| C35, C36 | `Clone`, `downgrade`, `upgrade`, `Drop for WeakNode` | **false for contiguous nodes**: from every reachable state and for every such handle enough `drop(k.clone())` make the item unreadable (`c35_refuted_every`), so the claim holds of a handle iff its node is scattered (`c35_exact_partial`, `c36_exact_partial`); proved for scattered ones | partial + refutation |
| C43 | use of `&mut Node` after dropping the detached tree | **false** (use after free in safe code) for every node that can be detached, in every state (`c43_refuted_every`); the reference is valid only while some variable holds the node (`c43_exact_partial`), and valid while the tree exists | partial + refutation |
| C44 | `IterRc` advanced after the tree is gone | **false** (use after free in safe code) whenever the current node is held by nothing (`c44_refuted_every`, exact: `c44_exact_partial`); right while the current node is shown by a handle | partial + refutation |
| C42 | `Size`, overflow-checked and wrapping | arithmetic | proved |
| C45 | construction from `bfs().map(f)` / `into_bfs().map(f)` with a closure (or `T::clone`) that panics at any call; unwinding | the heap is a well-formed heap plus unreachable memory (`Leak`); every call is insensitive to it (robustness lemmas) | proved (and "no leak" refuted: `c45_no_leak_refuted`) |
| C46 | size and block counters | subtree addresses are distinct allocated nodes; block counter = used slots | proved |
| C47 | `From<BfsTree/BfsForest>` fed by a list iterator of the client's own, which may panic at any visit | same filling lemmas as C19 with another source; **false** for inconsistent visits (out-of-bounds write, wrong `node_count`, panicking destructor): witnesses; for *every* sequence and every memory an invariant of the filling loop (`Proof/Verdict.lean`, `Proof/VerdictShape.lean`) decides between accepted / panic / overrun and says what was built (`Spec/Visits.lean`: `Announced`, `Told`) | partial + refutation |
| C48 | same machine as C10; values read with the address of every node (`Model/Ident.lean`) | naturality of the whole code (`Proof/Nat*.lean`): heaps that differ in the items only evolve alike; run it on items tagged with their addresses and use C10 for the tagged heap; items stay in their nodes unless assigned: `c48_items`, `c48_assign` | proved |
| C49 | same machine as C10, two item types | naturality with an arbitrary function on items | proved |
| C50 | `eq/ne/partial_cmp/cmp/hash/fmt` of `RcNode` with their temporary borrows and child handles, on the Rc machine | induction over the tree a handle shows; every temporary handle and guard is undone exactly, also by unwinding | proved |
| C51 | `drop(x)` of a tree, forest or owning iterator in which the j-th destructor panics; `*data_mut() = d` with a panicking destructor; `mem::forget(x)` | a partial drop leaves a well-formed heap plus an unreachable part (`Part.forget`: cutting the part out gives the heap of a complete drop, related to the real one by `Leak`); with C45 every later call is insensitive to it | proved (and "complete drop" refuted: `c51_complete_refuted`) |
| C52 | every call of C10, C45, C51 | occurrences of every item counted before and after each call of the specification (`Spec/Ledger.lean` says what a call brings in and hands out), then induction over the program, transferred by C10/C45 | proved |
| C53 | every call of C10, with the addresses chosen by an arbitrary allocator (`Model/Alloc.lean`) that may reuse memory | simulation: the run with reuse and the run with addresses never reused (the machine of C10) proceed in lock step under a relation that is a bijection on live memory (`Proof/Alloc*.lean`); then C10/C14 are transferred | proved |
| C54 | the Rc machine (every call) against the executable specification `Spec/SharedStore.lean` (numbered rose trees; no counts, flags, links, boxes) | forward simulation `SSim` (`Proof/Shared*.lean`): per call from the C34/C37–C39 lemmas, then induction over the program; for programs that build no block without any side condition on the memory (`c54_no_blocks`, `Proof/NoBlock.lean`) | proved |
| C55 | the Rc machine with the bookkeeping of `Spec/SharedLedger.lean` (`bringsS`, `takesS`) | balance of one call of the specification (`Proof/SharedLedger.lean`), carried to the machine by the simulation of C54; shared nodes listed once (`SharedNodes`) | proved |
| C56 | the `fmt` functions of `macros.rs` with an arbitrary writer (`Model/Format.lean`): every piece may succeed, fail or panic; for `RcNode` with the temporary guards and child handles | induction over the tree shown: the call equals `emit` of the documented pieces (`Spec/Format.lean`) and the heap is returned unchanged | proved |
| C57 | `Extend` (rc.rs 511–517) as a loop of `push_back` calls of the Rc machine, with the unwinding of the iterator (`Model/Extend.lean`) | induction over the iterator with C37/C38 for each round | proved |
| C58 | every call of C54, with the addresses chosen by an arbitrary allocator (`Model/AllocRc.lean`) that may reuse memory, except the boxes that weak handles refer to | the simulation of C53, extended to handles, guards, weak handles and iterators (`Proof/AllocRc*.lean`); then C54/C34 are transferred | proved |
| C59 | `Drop for RcNode` with a destructor run that panics, and guards that are forgotten (`Model/RcPanic.lean`, drop glue included) | lock-step induction with the recursion of C34; field-by-field frame for the nodes of other trees (`Proof/RcPanic.lean`); the later-calls part is refuted by two histories of safe calls | partial (false of the code) |
| C60 | `Model/Swap.lean`: `mem::swap` of two roots, `Node::default()` in a variable, moves of it | refutations for every reachable state and all trees (`c60_refuted_swap`, `c60_refuted_parent`, `c60_refuted_move`); `c60_node_partial`: without such moves the node is the parent of its children | partial (false of the code) |
| C61 | `Model/Fine.lean`: the whole machine of C10/C53 once more, as programs of single memory accesses; `Model/Conc.lean`: threads, schedules, data races | running a program without interruption is the machine (`Proof/Fine*.lean`); the memory of a history splits into parts that each satisfy the invariants (`Proof/Split.lean`); each access of a thread is an access of its part and leaves the others alone (`Proof/Conc.lean`); hence every interleaving is, for each thread, its run alone. **False** for parts of one block: a race and a leak (`c61_refuted_race`, `c61_refuted_leak`). The hypothesis is the exact condition (`c61_exact`, `Proof/ConcExact.lean`): accesses that do not conflict commute, dropping a value writes the count of every block that has a node of it, so two threads that drop parts of one block can be brought to a race (`c61_drops_race`). Threads with values of their own and shared references to common ones, which they read and copy: `c61_mixed_*`. The copy is replaced by a ghost program that builds the same values without looking at the original, so that all writes are again writes to the thread's own part (`Proof/ConcMix.lean`, `ConcClone.lean`, `ConcThread.lean`, `ConcSys.lean`, `ConcStart.lean`) | partial (false of the code); readers (`Sync`) complete: `c61_readers` |
| C62 | `Model/Foreign.lean`: `Split`/`ExactSizeIterator` of a client as arbitrary pure functions; `BfsTree::from`, `BfsForest::from`, `wrap`, the selectors of `Bfs` | `Lists` (`Spec/Foreign.lean`) says which trees, with which claimed sizes, an iterator presents; invariant: the queue of iterators presents a list of lists of trees; the filling loop is bisimilar to the one of C47 over the list of the visits (`Proof/Foreign.lean`) | proved: `Props/Foreign.lean` |
| C63 | `Model/Cost.lean`: the number of accesses of the run of a call or program of `Model/Fine` (one unit for each read or write of a field of a node or of the header of a block, each call of the allocator and each run of a destructor; operations of the `VecDeque` of a breadth-first iteration are not counted; memory is never reused). `Model/Fine` reads the size of a root once more than the code when it drops it (to have a bound on the recursion), so the count is too large by one there | budget per call (`Spec/Cost.lean`) as a function of the plain trees; per function constants (`Proof/Cost*.lean`), chains of ancestors for `inc_sizes`/`dec_sizes`, induction over trees for drops, over the queue for breadth-first iterators; the counted run has the outcome of `step` (`Proof/CostRun.lean`); lower bound by the number of destructor runs | proved: `Props/Cost.lean` |
| C64 | `Model/Stack.lean`: the destructors of `Model/Node.lean` with a limit on nested calls, `Model/StackRc.lean`: that of `RcNode`; for hashing, printing and comparisons the recursion bound of `Model/Traits.lean` is that limit. A frame is one call of the recursive function; the constant number of machine frames per call and the size of a frame are not modelled | induction over the bound of the loop, one round of the drop loop at a time (`Proof/Stack.lean`); the program `deepProg` builds chains of any height; `Spec/Stack.lean` defines the height; for `RcNode` the induction of C34 (`Proof/StackRc.lean`) | proved: `Props/Stack.lean`, `Props/StackRc.lean`; `Debug`, `Display` with any writer, and printing and hashing of forests (`Model/StackFmt.lean`): `Props/StackFmt.lean`; the traits of `RcNode` (`Model/RcTraits.lean`): `Props/StackRcTraits.lean` |
| C65 | `mem::forget` (std; no code of the crate) = the variable disappears, memory stays (`Model/ForgetRc.lean`: `fstep`); specification `Spec/Forget.lean`: nothing is ever lost but the name | hiding variables commutes with every call (`Proof/ForgetRc.lean`, `hide_step`, `hide_rstep`, `hide_rejected`), so the machine is the one of the program without `forget`, seen through a veil; then C54 | `c65_program`, `c65_safe`, `c65_as_if_held` |
| C66 | `Model/Reenter.lean`: `Drop for Tree`/`Forest`/`IntoIter`, `data_mut()` assignment and the unwinding of `insert_*_sib`, with the destructor of each item run at the point where `heap::drop_node` (or the assignment) runs it; a destructor is a list of calls (`dtor d`), with its own nested destructors. The items that a dropped owning breadth-first iterator still holds have destructors that make no calls; a destructor's own panics are caught inside it | the values being dropped are out of reach like variables of their own: shifting the variables commutes with every call (`Proof/ReenterLift.lean`), so C10's step lemma holds while they are pending (`Proof/ReenterPend.lean`, `ReenterDrop.lean`); induction over the drop loop and over the nesting depth (`Proof/Reenter.lean`) | `c66_program`, `c66_safe`, `c66_released`, `c66_inert` |
| C67 | `Spec/ReenterLedger.lean`: what calls and destructors bring in and hand out (`ledgerReenter`) | `c67_program` (balance), `c67_all_destroyed`, `c67_distinct`: C52 lifted to re-entrant destructors by induction over nesting depth and program | proved |
| C68 | `Model/RcTraitsPanic.lean`: the traits of `RcNode` with user code that may panic (`Option`) or report a formatting error; unwinding releases guards and handles | `Spec/SharedPanic.lean`; `c68_eq` … `c68_display`: exact results, heap unchanged; `c68_display_prefix` | proved |
| C69 | `Model/Live.lean`: the machine with live borrows (`&Node`, `Iter`, the queue of a breadth-first iteration) as pointers and counters into the heap, used between arbitrary calls; the borrow checker as a side condition (`Op.writes`) | `Spec/Live.lean`: a borrow is a value as it was, with a position, or the visits to come. Simulation; iterators are tied to the addresses of the nodes of the borrowed value, which no other call changes (C48): `c69_program`, `c69_bfs`, `c69_node`, `c69_still`, `c69_safe` | proved |
| C70 | As C69, with `bfsMut` (a queue of `IterMut`s), `item` (a `&mut T`, named by its node), `get`, `set`; a variable borrowed exclusively cannot be used otherwise (`clash`) | `Spec/Live.lean`: a mutable iterator is a list of places to come, an item a place in the value that the variable has now. `Proof/LiveMut.lean`: the places held and still to come are distinct; a node is at one place only: `c70_order`, `c70_noalias`, `c70_exclusive`, `c70_get`, `c70_set` | proved |
| C71 | `Model/WalkLive.lean`: the machine together with any number of live cursors (`Model/Walk.lean`), used between arbitrary calls; a variable whose value is in a walk cannot be used | `Spec/WalkLive.lean`: a walk is its trees and a cursor of `Spec/Walk.lean`; nodes shown are observed by item, degree and node count. Simulation; the cursor depends on the addresses of the walked nodes only (`rel_frame`), which no other call changes (C48): `c71_program`, `c71_independent`, `c71_tour`, `c71_still`, `c71_back`, `c71_safe` | proved |
| C72 | `Model/Pin.lean`: references are addresses; node methods run on the address without any check (`Machine.direct`) | `Spec/Pin.lean`: the node of a reference is marked in the value; a call through the reference is the ordinary call at the place of the mark. Simulation: marks follow the nodes through every call (the identity argument of C48, for arbitrary marks), a call on an address is the call at its place. Uses after the node is gone, and insertions of a tree into itself, are answered `dangling` by the specification, with a witness: `c72_program`, `c72_safe`, `c72_place`, `c72_unique`, `c72_direct`, `c72_dangling`. What is read through a reference is what was read through it before unless items are assigned in between: `c72_item` (from a naturality context in which the items of old nodes are related to themselves only) | proved |
| C73 | `Model/IterKept.lean`: rounds of any calls of the program and one `next` of a kept raw iterator | what is yielded is a relation on positions in the states at the calls of `next` (`KeptIter`, `Machine.After`), proved by induction over the rounds from the representation invariant; `Undisturbed` rows yield the original children: `c73_kept`, `c73_row`. The model does not check that the calls between are those the borrow checker allows (it allows more) | proved |

Every refuted property has the full statement as a negated theorem (`c16_full_refuted`, `c27_…`, `c33_…`, `c35_refuted`,
`c36_refuted`, `c43_refuted`, `c44_refuted`, `c47_refuted_ub`, `c47_refuted_count`), so the gap between the English claim and the `_partial` theorem is explicit.

### What "Safe" excludes for C34, C37–C39
`Model/RcView.lean`, `Safe`: `clone`/`downgrade` of a handle whose node is in a contiguous block (C35/C36 show that these
corrupt the block's count), `next()` of an `IterRc` whose current node is not shown by any handle (C44), and the
`unsafe fn into_tree` with other handles to nodes of the tree (its safety contract).  Nothing else is excluded: guards,
panics, dropping in any order, exclusive trees mixed in, weak handles to scattered nodes are all included.

## 3. What is modelled, file by file

| file | modelled | not modelled |
|------|----------|--------------|
| `node.rs` | everything up to line 597 (all methods), traits 599–602 via `macros.rs` | |
| `tree.rs`, `forest.rs` | all methods, `Drop`, `Clone`, `from_tuple`, `into_data`, `set_up`, `clear` | `Deref` (identity in the model) |
| `heap.rs`, `node_vec.rs` | `make_node`, `drop_node`, `NodeVec` allocation, `append_child`, `construct_tree/forest`, `decr_ref`, `Drop` | layout of memory: a block is an address range, slot `i` at `base+i` |
| `iter.rs`, `into_iter.rs` | raw iterators, `Iter`, `IterMut`, `IntoIter` incl. `Drop` and `size_hint` | |
| `bfs.rs`, `bfs_impls.rs` | `Splitted`, `map`, all `bfs*`, `into_bfs`, `From<BfsTree/BfsForest>`, `deep_clone*`, clients' implementations of `Split`, `BfsTree::from`, `BfsForest::from`, `wrap`, selectors of `Bfs` | implementations of `Split` whose functions have effects on each other (interior mutability); `Debug for Splitted` |
| `walk.rs` | `Visit`, `Walk`, `TreeWalk`, `ForestWalk`, all cursor methods, conversions; what `Send`/`Sync` allow (C61) | |
| `tuple.rs` | `TupleTree`/`TupleForest` visitors, sizes, heights for every nesting | the type-level encoding (arity ≤ 12): any arity in the model |
| `size.rs`, `notation.rs`, `macros.rs` | everything (formatting: what is handed to the writer, C56; `Formatter` options such as width are part of the arbitrary `T::fmt`) | |
| `rc.rs`, `iter_rc.rs` | handles, counts, borrows, guards, weak handles, all `RcNode` methods, the traits of line 519–521 | see section 5 |

Simplifications, each also noted at the definition: addresses are never reused (so a stale pointer is always detected; C53 shows for the machine of C10, and C58 for the machine with shared nodes, that this loses nothing: with reuse every program behaves the same);
`usize` is `Nat` except in C42; the data type is one type `α` per machine; user code (`T::clone`, closures) is a total
function except in C45 and C51, where it may panic (in C51 one destructor run panics; a second panic while unwinding would abort the process); the strong count and the RefCell flag of a node are fields of the node; drop glue is written out.

## 4. Trusted base

* Lean 4.33.0 kernel; axioms `propext`, `Classical.choice`, `Quot.sound` at most, for every theorem (checked with
  `#print axioms`; vcheck replays every module through the kernel).  No axioms added, no compiled evaluation.
* The reading of the Rust source: each model definition cites what it transcribes.
* The semantics of `Rc`, `RefCell`, `VecDeque`, `Vec`, `Box`, iterator adaptors, temporaries' lifetimes and unwinding is
  modelled by hand.
* Rust's type system: programs the borrow checker refuses are `rejected` in the machine (moved variables, a handle
  dropped while a guard borrows it).

## 5. Not modelled

Aliasing models (Stacked/Tree Borrows), weak memory (C61 interleaves single accesses; where it proves that there is no data race, this is no restriction), allocation failure, count overflow,
the size of a stack frame (C64 counts nested calls), `mem::swap` on the (Unpin) nodes other than roots (C60 has roots), `RcNode::node`/`node_mut` (`unsafe fn`s that return a plain `Ref`/`RefMut`,
like `iter`), timing (C63 counts accesses).

## 6. Findings about the code

1. `Tree::from_tuple`/`Forest::from_tuple` build wrong trees, destroy items or do not return, for tuples in which a
   node after a nested branch … (exactly the shapes that are not `Tup.good`), e.g. `(0,(1,(2,3)),4)` (C16, C17).
2. `postorder_with_size_hint` reports the pre-order visits (C33).
3. After a failed `to_sib`/`to_child` the walk's `get()` panics (C27).
4. `Clone for RcNode` in a contiguous block does not increment the block's count: dropping the clone can free the block
   under other handles (C35).  `downgrade` has the same defect, `upgrade` too (C36).
5. `Node::detach` takes `Pin<&mut Self>` only for the call: safe code can drop the returned tree and go on using the
   node (C43).
6. `IterRc` holds a raw pointer without lifetime or handle: safe code can advance it after the tree is gone (C44).
7. The public fields of `BfsTree`/`BfsForest` let safe code supply wrong sizes: writes outside of the block through
   `get_unchecked`, or a tree with wrong counters, whose destructor may panic (C47).  Not formalised as properties: `BfsTree`'s own `size` for a tree has `degree: 1`; operations on a parent read and change children without looking at the children's RefCell flags;
   leaking a guard makes the later drop of the handle panic.
8. `Tree::abandon` moves the root's item to a new node (the forest keeps the old one), so references to the root are
   references to the forest's sentinel afterwards (C48, `c48_abandon`).
9. A closure or `T::clone` that panics while a contiguous tree is being built leaks the half-built block and the items in
   it (C45); nothing else is affected.
10. A destructor that panics leaks the ancestors and later siblings of its node (the tree is not destroyed any further), while
    the later trees of an `IntoIter` are destroyed (C51); nothing else is affected.
11. `Debug` of an `RcNode` prints the address of the handle it is called on, for the descendants the address of a temporary
    handle, not the address of the node (C56, `c56_debug_shared`), unlike `Debug` of `Node` and `Tree`.
12. `Drop for RcNode`: if it is interrupted by a panic (a destructor of the user's data panics, or `pop_front` conflicts with a guard
    leaked by `mem::forget`), the node's `Rc` is released although the remaining children still point to it; `parent()`, `is_root()`
    and `detach()` on a handle to such a child then access freed memory — in safe code (C59).
13. `Node<T>` is `Unpin` (if `T` is) and `Default`: `Pin<&mut Node<T>>` does not pin. `mem::swap(&mut *a.root_mut(), &mut *b.root_mut())`
    followed by the drops of `a` and `b` is a use after free, and so is `parent()` of a child of a moved `Node::default()` — in safe code (C60).
14. `TreeWalk` and `ForestWalk` are `Send` if `T` is, and a `Tree`/`Forest` can be put in and taken out: so every tree can be sent to another
    thread. Parts of one contiguous tree (e.g. a clone and a child popped from it) share the block's `ref_cnt: Cell<usize>`: dropping them in
    different threads is a data race, and can lose a decrement, so that the block is never released — in safe code (C61).
15. `Drop` for `Tree`/`Forest`, `Hash`, `Display`, `PartialEq`, `PartialOrd` and `Ord` recurse once per level, although everything that builds,
    clones or converts trees is iterative: for every stack size there is a tree, built with a constant amount of work per call, whose drop aborts the process (C64).
