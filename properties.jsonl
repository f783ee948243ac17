{"id": "C01", "title": "push_front/push_back add exactly one child at the right end", "statement": "After node.push_back(t) (resp. push_front(t)) the node's children are the old children, in order, followed (resp. preceded) by t with its whole subtree unchanged; every other node of every tree keeps its data and its children. Same through Tree, Forest and Node.", "quantifier": "every state reachable by any sequence of API calls, every node of every tree/forest in it, every tree pushed", "why_tests_cant": "The effect depends on the length of the child list and the depth of the node; tests only try a few small shapes, and a wrong link may only show several operations later.", "anchors": ["src/node.rs:Node::push_front", "src/node.rs:Node::push_back", "src/tree.rs:Tree::push_back", "src/forest.rs:Forest::push_back"]}
{"id": "C02", "title": "pop_front/pop_back remove exactly the end child", "statement": "pop_front (resp. pop_back) returns None and changes nothing iff the node has no child; otherwise it returns the first (resp. last) child with its whole subtree as an independent tree and the node keeps the remaining children in order; nothing else changes.", "quantifier": "every reachable state, every node", "why_tests_cant": "Needs all child counts (0, 1, many) at all depths and after all histories of list surgery.", "anchors": ["src/node.rs:Node::pop_front", "src/node.rs:Node::pop_back", "src/tree.rs:Tree::from_node"]}
{"id": "C03", "title": "prepend/append splice a whole forest", "statement": "append(f) makes the node's children old ++ f, prepend(f) makes them f ++ old, in order, each spliced tree unchanged; splicing an empty forest changes nothing; f is consumed.", "quantifier": "every reachable state, every node, every forest (including the empty one)", "why_tests_cant": "Four combinations of empty/non-empty at every depth and the re-parenting of arbitrarily many nodes.", "anchors": ["src/node.rs:Node::prepend", "src/node.rs:Node::append", "src/forest.rs:Forest::set_up", "src/forest.rs:Forest::clear"]}
{"id": "C04", "title": "insert_prev_sib/insert_next_sib insert next to the node", "statement": "Called on the i-th child of a node, insert_prev_sib(t) makes t the i-th child and shifts the rest; insert_next_sib(t) makes t the (i+1)-th child; all other nodes keep data and children.", "quantifier": "every reachable state, every non-root node, every inserted tree", "why_tests_cant": "First, middle, last and only child are different code paths, composed with arbitrary histories.", "anchors": ["src/node.rs:Node::insert_prev_sib", "src/node.rs:Node::insert_next_sib"]}
{"id": "C05", "title": "detach removes exactly that subtree and returns it intact", "statement": "detach on the i-th child of a node removes it from the child list (the others keep their order) and returns it as an independent tree with the same contents; reattaching it with insert at the same position restores the original tree.", "quantifier": "every reachable state, every non-root node", "why_tests_cant": "Only/first/last/middle child are different paths; damage to sibling links shows only in later traversals.", "anchors": ["src/node.rs:Node::detach"]}
{"id": "C06", "title": "degree and node_count are always exact", "statement": "At every moment, for every node in every tree or forest, degree() is the number of its children, has_no_child() is degree()==0, and node_count() is the number of nodes of its subtree (for a Forest: number of all nodes in it), however deep the mutations happened.", "quantifier": "every history of mutations, every node of every live tree/forest", "why_tests_cant": "The counters are maintained incrementally along all ancestors; an omitted or doubled update at some depth survives any finite set of examples.", "anchors": ["src/node.rs:Node::inc_sizes", "src/node.rs:Node::dec_sizes", "src/node.rs:Node::degree", "src/node.rs:Node::node_count"]}
{"id": "C07", "title": "parent() is the inverse of the child relation", "statement": "parent() of every child of a node is that very node; parent() of a tree root and of every top-level node of a Forest is None.", "quantifier": "every history, every node of every live tree/forest", "why_tests_cant": "Up-links are rewritten by push, splice, detach, pop and abandon; a stale link is invisible until followed.", "anchors": ["src/node.rs:Node::parent", "src/node.rs:Node::set_up"]}
{"id": "C08", "title": "child iteration yields exactly the children, in order", "statement": "iter()/iter_mut() of any node or forest yields each child once, in order, then None forever; len()/size_hint is exactly the number of items still to come; front()/back() are the first/last item.", "quantifier": "every history, every node of every live tree/forest, every number of next() calls", "why_tests_cant": "The iterator combines a counter and a link chain that must agree after every history.", "anchors": ["src/iter.rs:CountedRawIter::next", "src/iter.rs:UncountedRawIter::next", "src/node.rs:Node::iter", "src/node.rs:Node::front", "src/node.rs:Node::back"]}
{"id": "C09", "title": "mutating siblings while iterating is safe and predictable", "statement": "During iter_mut(), calling insert_prev_sib, insert_next_sib, detach or nothing on each yielded child visits exactly the original children in order (inserted ones are not visited), and the resulting child list is the original with each child replaced by what the action says.", "quantifier": "every child list, every assignment of actions to positions", "why_tests_cant": "Exponentially many action patterns; the iterator must survive all of them.", "anchors": ["src/iter.rs:UncountedRawIter::next", "src/node.rs:Node::insert_next_sib", "src/node.rs:Node::detach"]}
{"id": "C10", "title": "any sequence of exclusive-ownership API calls behaves like plain values", "statement": "Any sequence of Tree/Forest/Node calls behaves exactly like the same sequence on immutable rose-tree values held in variables: same results, same final contents, ownership moves, no dangling access, no unbounded loop, no unexpected panic.", "quantifier": "every finite sequence of API calls with every argument", "why_tests_cant": "Histories are unbounded; unsafe pointer code may corrupt state that only a much later call reveals.", "anchors": ["src/node.rs", "src/tree.rs", "src/forest.rs", "src/heap.rs"]}
{"id": "C11", "title": "sibling insertion and detach on a root panic and change nothing", "statement": "insert_prev_sib, insert_next_sib and detach called on a node without parent link (root of a Tree) panic before anything is modified; on any other node they never panic.", "quantifier": "every reachable state, every root", "why_tests_cant": "A panic after a partial update would leave a broken structure behind catch_unwind; no test observes all states.", "anchors": ["src/node.rs:Node::insert_prev_sib", "src/node.rs:Node::insert_next_sib", "src/node.rs:Node::detach"]}
{"id": "C12", "title": "abandon separates the root from its children", "statement": "tree.abandon() returns the forest of all children, unchanged and in order, and leaves the tree as a single root with the same data.", "quantifier": "every reachable tree", "why_tests_cant": "The root node object is re-used as the forest header and the data moved to a fresh node; all children still point to the old one.", "anchors": ["src/tree.rs:Tree::abandon", "src/node.rs:Data::take", "src/forest.rs:Forest::from_node"]}
{"id": "C13", "title": "owning iteration hands out every tree once", "statement": "into_iter() of a Forest yields its trees as independent trees in order, len() is the number left; into_iter() of a Tree yields the tree itself once; dropping the iterator midway releases the rest.", "quantifier": "every reachable forest/tree, every number of next() calls before dropping", "why_tests_cant": "Ownership transfer at each step for every prefix length.", "anchors": ["src/into_iter.rs:IntoIter::next", "src/into_iter.rs:IntoIter::size_hint", "src/into_iter.rs:IntoIterator for Tree", "src/into_iter.rs:IntoIterator for Forest"]}
{"id": "C14", "title": "dropping releases everything exactly once, children before parents", "statement": "Dropping a tree or forest runs the destructor of every data item in it exactly once, in post-order (children left to right, then the node), frees every node, and touches no other live tree.", "quantifier": "every reachable tree/forest", "why_tests_cant": "Leaks and double frees depend on shape, storage kind and history; tests do not observe them.", "anchors": ["src/tree.rs:Drop for Tree", "src/forest.rs:Drop for Forest", "src/heap.rs:drop_node"]}
{"id": "C15", "title": "contiguous storage lives exactly as long as its last node", "statement": "A block of contiguously stored nodes is released exactly when the last node stored in it has been dropped or moved out, in whatever order nodes are detached, spliced into other trees and dropped; never earlier, never twice, never leaked (exclusive-ownership API).", "quantifier": "every history mixing contiguous and scattered nodes", "why_tests_cant": "Nodes of one block may be spread over many trees; the reference count must be right for all orders.", "anchors": ["src/node_vec.rs:NodeVec::decr_ref", "src/heap.rs:drop_node", "src/node.rs:Data::into_inner", "src/node_vec.rs:Drop for NodeVec"]}
{"id": "C16", "title": "Tree::from_tuple builds the tree the tuple denotes", "statement": "Tree::from_tuple((d, c1, ..., cn)) is the tree with root d and children denoted by c1..cn, recursively, for tuples nested to any depth.", "quantifier": "every nested tuple", "why_tests_cant": "Nesting shapes are unbounded; existing tests use depth 3 with leaf-last children only.", "anchors": ["src/node_vec.rs:NodeVec::construct_tree", "src/node_vec.rs:NodeVec::append_child", "src/tree.rs:Tree::from_tuple", "src/tuple.rs"]}
{"id": "C17", "title": "Forest::from_tuple builds the forest the tuple denotes", "statement": "Forest::from_tuple((c1, ..., cn)) is the forest of the trees denoted by c1..cn, including the empty tuple.", "quantifier": "every nested tuple", "why_tests_cant": "As for trees.", "anchors": ["src/node_vec.rs:NodeVec::construct_forest", "src/forest.rs:Forest::from_tuple"]}
{"id": "C18", "title": "breadth-first iteration is level order with exact sizes", "statement": "bfs() of a node yields every node of its subtree exactly once in level order (by depth, left to right), each with its data, its degree and its number of descendants, then None; bfs() of a Forest / bfs_children() likewise starting from the children.", "quantifier": "every reachable tree/forest/node", "why_tests_cant": "Queue discipline over unboundedly many shapes.", "anchors": ["src/bfs.rs:Splitted::next", "src/bfs_impls.rs:Node::bfs", "src/bfs_impls.rs:Node::bfs_children", "src/bfs_impls.rs:Forest::bfs"]}
{"id": "C19", "title": "rebuilding from a breadth-first sequence is the identity", "statement": "Tree::from(t.bfs()) and Tree::from(t.into_bfs()) (and the Forest versions) give a tree equal to t, stored contiguously, whatever mix of storage t used.", "quantifier": "every reachable tree/forest", "why_tests_cant": "Reconstruction relies on counter arithmetic over the visit sequence; unbounded shapes.", "anchors": ["src/bfs_impls.rs:From<BfsTree> for Tree", "src/bfs_impls.rs:From<BfsForest> for Forest"]}
{"id": "C20", "title": "clone is equal and independent", "statement": "deep_clone()/clone() of any node, tree or forest produces an equal tree/forest sharing no node with the original: later mutations or drops of one never change the other.", "quantifier": "every reachable tree, every node, every later history on either copy", "why_tests_cant": "Independence quantifies over all later histories.", "anchors": ["src/bfs_impls.rs:Node::deep_clone", "src/bfs_impls.rs:Node::deep_clone_forest", "src/tree.rs:Clone for Tree", "src/forest.rs:Clone for Forest"]}
{"id": "C21", "title": "bfs().map transforms data and keeps the shape", "statement": "Tree::from(t.bfs().map(f)) has the shape of t with f applied to every data item; same for forests.", "quantifier": "every reachable tree/forest, every function f", "why_tests_cant": "Unbounded shapes and functions.", "anchors": ["src/bfs.rs:BfsTree::map", "src/bfs.rs:BfsForest::map"]}
{"id": "C22", "title": "owning breadth-first iteration moves every item out once", "statement": "into_bfs() yields the same level-order sequence as bfs() but owning the data; after exhausting it (or dropping it after any prefix) no node is leaked, freed twice or its data dropped twice.", "quantifier": "every reachable tree/forest, every prefix length", "why_tests_cant": "Each step dismantles a node; partial consumption at every point must stay safe.", "anchors": ["src/bfs_impls.rs:Split for Tree", "src/bfs_impls.rs:Tree::into_bfs", "src/bfs_impls.rs:Forest::into_bfs", "src/tree.rs:Tree::into_data"]}
{"id": "C23", "title": "mutable breadth-first iteration updates exactly the visited data", "statement": "bfs_mut()/bfs_children_mut() visit the nodes in level order with exact sizes; writing to the k-th visit's data changes the data of exactly that node and nothing else (shape and other data kept).", "quantifier": "every reachable tree/forest, every update function", "why_tests_cant": "Unbounded shapes; aliasing between visits would only show for some shapes.", "anchors": ["src/bfs_impls.rs:Node::bfs_mut", "src/bfs_impls.rs:Split for Pin<&mut Node>"]}
{"id": "C24", "title": "depth-first walk is the Euler tour", "statement": "Calling get/forward repeatedly on a TreeWalk (ForestWalk) produces Begin/End for each branched node around its children's visits and Leaf for each leaf, in depth-first order, then None forever; forward always terminates.", "quantifier": "every reachable tree/forest, every number of forward calls", "why_tests_cant": "State machine with explicit stack over unbounded shapes; a missed case may loop forever.", "anchors": ["src/walk.rs:Walk::forward", "src/walk.rs:Walk::get", "src/walk.rs:TreeWalk", "src/walk.rs:ForestWalk"]}
{"id": "C25", "title": "walk jumps land where they say, from any position", "statement": "At any cursor position reached by any mix of forward/to_parent/to_child/to_sib/revisit that never failed: to_parent moves to the parent's End (or finishes), to_child(n) to the n-th child, to_sib(n) to the n-th next sibling, get_parent is the parent, and traversal continues from there as the Euler tour does.", "quantifier": "every tree/forest, every sequence of cursor operations", "why_tests_cant": "Arbitrary interleavings of jumps and steps.", "anchors": ["src/walk.rs:Walk::to_parent", "src/walk.rs:Walk::to_child", "src/walk.rs:Walk::to_sib", "src/walk.rs:Walk::get_parent"]}
{"id": "C26", "title": "revisit restarts the current node", "statement": "revisit at End goes back to Begin of the same node, has no effect at Begin or Leaf (now and for every later step), and after completion restarts the whole traversal.", "quantifier": "every cursor position", "why_tests_cant": "\"No effect\" quantifies over all later behaviour.", "anchors": ["src/walk.rs:Walk::revisit"]}
{"id": "C27", "title": "a jump that fails leaves a usable cursor", "statement": "When to_sib(n) or to_child(n) returns None because there is no such sibling/child, the cursor can still be queried with get().", "quantifier": "every tree/forest, every cursor position, every n", "why_tests_cant": "Error paths combined with every later call.", "anchors": ["src/walk.rs:Walk::to_sib", "src/walk.rs:Walk::to_child", "src/walk.rs:Walk::get"]}
{"id": "C28", "title": "equality is structural", "statement": "Two trees (nodes, forests) are == exactly when they have equal data and equal children in the same order, regardless of storage kind and construction history; != is its negation.", "quantifier": "every two reachable trees/forests", "why_tests_cant": "All pairs of shapes and storage mixes.", "anchors": ["src/macros.rs:impl_order_relations_for_node", "src/macros.rs:impl_order_relations_for_collection"]}
{"id": "C29", "title": "ordering is lexicographic and total", "statement": "cmp compares data first and then children lexicographically; it is a total order (antisymmetric, transitive) whenever the data's order is, agrees with partial_cmp, and returns Equal exactly when ==.", "quantifier": "every two/three reachable trees/forests", "why_tests_cant": "Order laws quantify over all triples.", "anchors": ["src/macros.rs:impl_order_relations_for_node", "src/macros.rs:impl_order_relations_for_collection"]}
{"id": "C30", "title": "equal trees hash equally", "statement": "The sequence fed to the hasher is the pre-order sequence of data, so equal trees/forests hash equally under every hasher.", "quantifier": "every two reachable trees/forests, every hasher", "why_tests_cant": "All pairs and all hashers.", "anchors": ["src/macros.rs:impl_hash_for_node", "src/macros.rs:impl_hash_for_forest"]}
{"id": "C31", "title": "Display has the documented form and is unambiguous", "statement": "to_string() of a leaf is its data, of a branch data( child1 ... childn ), of a forest ( child1 ... childn ) or (); when data renderings contain no blank or parenthesis, different trees have different strings (the string can be parsed back).", "quantifier": "every reachable tree/forest with such renderings", "why_tests_cant": "Injectivity is a statement about all pairs.", "anchors": ["src/macros.rs:impl_debug_display_for_node", "src/macros.rs:impl_debug_display_for_forest"]}
{"id": "C32", "title": "operator notation denotes the obvious tree", "statement": "-t, t-u, f-t, f-g, t/u, t/f, t/() and all by-reference variants denote: the forest of the operands in left-to-right order, and the tree with the right operand(s) appended as last child(ren); by-reference operands are not changed.", "quantifier": "every reachable operand, all 24 operator impls", "why_tests_cant": "All operands; by-reference variants clone or prepend internally.", "anchors": ["src/notation.rs:impl_notations"]}
{"id": "C33", "title": "tuple visitors report pre-order/post-order with exact sizes", "statement": "preorder yields Branch(data) children Frame / Leaf(data) in depth-first order; postorder yields Frame children Branch(data) / Leaf; the *_with_size_hint versions yield the same visits, each with the node's degree and descendant count; SIZE, height and descendants(level) are those of the denoted tree.", "quantifier": "every nested tuple", "why_tests_cant": "Unbounded nesting.", "anchors": ["src/tuple.rs:TupleTree", "src/tuple.rs:TupleForest", "src/tuple.rs:impl_tuple_tree", "src/tuple.rs:impl_tuple_forest"]}
{"id": "C34", "title": "a node lives as long as someone holds it (shared ownership)", "statement": "With RcNode: as long as a handle to a node exists the node and its data stay accessible with the right contents; handles to nodes of a dropped parent keep their subtrees, as new roots; when the last handle goes, nodes not reachable from a remaining handle are dropped exactly once.", "quantifier": "every history of RcNode operations on scattered nodes, and on contiguous nodes without clone/downgrade/upgrade (programs that make none of the calls C35, C36 and C44 show to be unsound: clone/downgrade of a handle into a contiguous block, advancing an iter_rc iterator whose current node is gone, unsafe into_tree with other handles into the tree)", "why_tests_cant": "Reference-count correctness over unbounded histories and sharing patterns.", "anchors": ["src/rc.rs:Drop for RcNode", "src/rc.rs:Node::rc", "src/rc.rs:Node::into_rc", "src/rc.rs:From<Tree> for RcNode"]}
{"id": "C35", "title": "cloning an RcNode never invalidates another handle", "statement": "Cloning an RcNode and dropping the clone leaves all other handles valid, for scattered and contiguous storage.", "quantifier": "every node, storage kind, number of clones", "why_tests_cant": "Needs counting over arbitrary clone/drop interleavings.", "anchors": ["src/rc.rs:Clone for RcNode", "src/rc.rs:Drop for RcNode"]}
{"id": "C36", "title": "weak handles never keep alive and never dangle", "statement": "upgrade() of a WeakNode gives the node while some strong handle (or parent) keeps it alive and None afterwards; creating, upgrading and dropping weak handles never invalidates strong handles.", "quantifier": "every history with weak handles", "why_tests_cant": "Interleavings of downgrade/upgrade/drop.", "anchors": ["src/rc.rs:RcNode::downgrade", "src/rc.rs:WeakNode::upgrade", "src/rc.rs:Drop for WeakNode"]}
{"id": "C37", "title": "shared mutations act on the one shared tree", "statement": "push/pop/append/prepend/insert/detach/data_mut through any RcNode handle have exactly the effect of the exclusive API on the shared tree, visible through every other handle; front/back/parent/iter_rc return handles to the actual nodes.", "quantifier": "every history, every handle (programs that make none of the calls C35, C36 and C44 show to be unsound: clone/downgrade of a handle into a contiguous block, advancing an iter_rc iterator whose current node is gone, unsafe into_tree with other handles into the tree)", "why_tests_cant": "Aliasing of handles over arbitrary histories.", "anchors": ["src/rc.rs:RcNode", "src/iter_rc.rs:IterRc"]}
{"id": "C38", "title": "dynamic borrows exclude conflicting access", "statement": "While a data() guard on a node is held, data_mut() and every mutating call through a handle on that node panics and changes nothing; while a data_mut() guard is held every access through a handle on that node panics; guards on other nodes do not interfere.", "quantifier": "every set of outstanding guards, every call (programs that make none of the calls C35, C36 and C44 show to be unsound: clone/downgrade of a handle into a contiguous block, advancing an iter_rc iterator whose current node is gone, unsafe into_tree with other handles into the tree)", "why_tests_cant": "All combinations of guards and calls.", "anchors": ["src/rc.rs:RcNode::node_borrow", "src/rc.rs:RcNode::node_borrow_mut", "src/rc.rs:RcNode::data", "src/rc.rs:RcNode::data_mut"]}
{"id": "C39", "title": "Tree <-> RcNode conversion keeps the tree", "statement": "RcNode::from(tree) has the contents of tree; into_tree() on the only handle of a root gives back an equal tree; into_tree() on a non-root panics.", "quantifier": "every reachable tree / rc root (programs that make none of the calls C35, C36 and C44 show to be unsound: clone/downgrade of a handle into a contiguous block, advancing an iter_rc iterator whose current node is gone, unsafe into_tree with other handles into the tree)", "why_tests_cant": "All shapes and storage kinds.", "anchors": ["src/rc.rs:From<Tree> for RcNode", "src/rc.rs:RcNode::into_tree", "src/rc.rs:RcNode::is_root"]}
{"id": "C40", "title": "data_mut changes only that node's data", "statement": "Writing through data_mut() of any node replaces the data of exactly that node; shape, sizes and all other data are unchanged; data() reads the last value written.", "quantifier": "every reachable state, every node, every value", "why_tests_cant": "Aliasing over all shapes.", "anchors": ["src/node.rs:Node::data", "src/node.rs:Node::data_mut"]}
{"id": "C41", "title": "walks give the tree back unchanged", "statement": "Converting a Tree/Forest into a walk, performing any cursor operations, and converting back yields the same tree/forest.", "quantifier": "every tree/forest, every sequence of cursor operations", "why_tests_cant": "Any sequence of cursor operations.", "anchors": ["src/walk.rs:From<TreeWalk> for Tree", "src/walk.rs:From<ForestWalk> for Forest"]}
{"id": "C42", "title": "Size arithmetic is componentwise", "statement": "Adding and subtracting Size values acts componentwise; subtracting what was added restores the value; subtracting more than is there is an arithmetic overflow.", "quantifier": "every pair of sizes", "why_tests_cant": "All values.", "anchors": ["src/size.rs:Size"]}
{"id": "C43", "title": "a node reference stays valid after detaching", "statement": "After node.detach() returned a tree, the caller may still use the node reference it called detach on.", "quantifier": "every node, every later history of the detached tree", "why_tests_cant": "Needs all later histories, in particular dropping the returned tree.", "anchors": ["src/node.rs:Node::detach"]}
{"id": "C44", "title": "shared iterators stay valid", "statement": "An IterRc obtained from a node may be advanced at any later time.", "quantifier": "every later history of the iterated tree", "why_tests_cant": "Needs all later histories, in particular dropping the iterated tree.", "anchors": ["src/iter_rc.rs:IterRc::next", "src/rc.rs:RcNode::iter_rc"]}
{"id": "C45", "title": "Panics of user code during construction are contained", "statement": "If the closure of bfs().map(f) or into_bfs().map(f), or T::clone in clone/deep_clone, panics at some call while a tree or forest is being built, and the program catches the panic: copying leaves every tree and forest (the source included) as it was and destroys nothing; consuming construction destroys exactly the items not yet handed to the closure plus the one being handled, each once, and touches no other variable; every later call behaves as specified, with no access to dead memory and no double destruction. The items already placed in the unfinished structure are leaked.", "quantifier": "every program, every tree and forest, every closure, every call at which it panics, every later history", "why_tests_cant": "All shapes, all panic points, all histories after the panic.", "anchors": ["src/bfs_impls.rs:From<BfsTree>", "src/bfs_impls.rs:From<BfsForest>", "src/bfs.rs:BfsTree::map", "src/node.rs:Node::deep_clone"]}
{"id": "C46", "title": "Counters cannot overflow", "statement": "In every state a client can reach, every size counter stored in a node (degree, descendants) is smaller than the number of nodes currently allocated, and every block counter is at most the number of slots of its block and of allocated nodes; so on a machine whose addresses fit in usize no counter ever overflows and node_count() never exceeds the memory in use.", "quantifier": "every history, every node and block", "why_tests_cant": "All histories; the bound is only reached with astronomically many nodes.", "anchors": ["src/node.rs:Node::inc_sizes", "src/size.rs:Size", "src/node_vec.rs:NodeVec"]}
{"id": "C47", "title": "Construction from a client's own breadth-first iterator", "statement": "Tree::from(BfsTree{iter,size}) and Forest::from(BfsForest{iter,size}), whose fields are public, turn any sequence of visits into the tree or forest it describes or refuse it with a panic.", "quantifier": "every sequence of visits, every announced size, every call at which the iterator panics", "why_tests_cant": "All sequences, in particular inconsistent ones.", "anchors": ["src/bfs.rs:BfsTree", "src/bfs.rs:BfsForest", "src/bfs_impls.rs:From<BfsTree>", "src/bfs_impls.rs:From<BfsForest>"]}
{"id": "C48", "title": "Nodes keep their identity", "statement": "A node stays at its address from its creation until it is destroyed: moving trees between parents, forests and variables, inserting, removing, detaching, iterating and updating data in place never relocate, copy or exchange a node; a value is unaffected by anything done to other values, down to the addresses of its nodes. The one exception is Tree::abandon, which puts the root's item into a new node.", "quantifier": "every history of exclusive-API calls, every node", "why_tests_cant": "A test compares contents, not identities, and covers a few histories; clients that keep Pin<&mut Node> or raw pointers rely on it after every call.", "anchors": ["src/node.rs:Node", "src/tree.rs:Tree", "src/forest.rs:Forest", "src/tree.rs:Tree::abandon"]}
{"id": "C49", "title": "Items are opaque", "statement": "Changing all items of a program by any function (closures accordingly) changes all its results, contents and the sequence of destroyed items by that function and nothing else: the crate never looks at, makes, duplicates or exchanges items.", "quantifier": "every program, every function on items", "why_tests_cant": "All programs and all item types.", "anchors": ["src/node.rs:Node<T>", "src/tree.rs:Tree<T>", "src/forest.rs:Forest<T>", "src/bfs_impls.rs"]}
{"id": "C50", "title": "Comparison, order, hash and printing of shared nodes", "statement": "==, !=, partial_cmp, cmp, hash and Display of RcNode handles are those of the trees below the handles, whichever other handles and borrows exist: two handles are equal exactly if their trees have the same shape and equal data, equal handles have equal hashes, the order is lexicographic, the text has the documented form. They change no count, no borrow state and no data; they panic exactly if they have to look at a node whose data is mutably borrowed, and even then everything is left as it was.", "quantifier": "every reachable state of a program using RcNode (outside of the defects of C35, C36, C43, C44), every two handles, all implementations of the data type's traits", "why_tests_cant": "All histories of handles and borrows, all trees, all trait implementations.", "anchors": ["src/macros.rs:impl_order_relations_for_node", "src/macros.rs:impl_hash_for_node", "src/macros.rs:impl_debug_display_for_node", "src/rc.rs:519-521", "src/iter_rc.rs:IterRc::next"]}
{"id": "C51", "title": "Panicking destructors and forgotten values", "statement": "If the destructor of the j-th item (in order of destruction) panics while a tree or forest is dropped, the call panics, exactly the first j+1 items of the post-order were destroyed and the rest of the tree is leaked; an owning iterator nevertheless destroys the trees after the one in which the destructor panicked; an assignment through data_mut whose old item panics in its destructor takes place. mem::forget destroys nothing. In each case the variable is gone (or holds the written data), every other variable is unchanged, and whatever the program does afterwards no call accesses released memory, no item is destroyed twice.", "quantifier": "every reachable state of a program that catches panics and goes on, every tree, forest and owning iterator, every index of the panicking destructor, every later call", "why_tests_cant": "All shapes, all positions of the panic, all continuations on the remaining memory.", "anchors": ["src/tree.rs:Drop for Tree", "src/forest.rs:Drop for Forest", "src/into_iter.rs:Drop for IntoIter", "src/heap.rs:drop_node", "src/node.rs:data_mut"]}
{"id": "C52", "title": "Conservation of items over whole histories", "statement": "Over any program, the items ever brought into the library (arguments, results of closures, items written through references) are exactly the items the program's variables give access to, the items destroyed and the items handed out, each as often as it was brought in. If all variables are given up, every item has been destroyed or handed out exactly once. If user code panics or values are forgotten, items may be missing (leaked), but still no item is destroyed twice, none is in two places and none that was destroyed or handed out is still accessible.", "quantifier": "every sequence of calls of the exclusive-ownership API, of any length, with panics anywhere", "why_tests_cant": "It is a balance over all histories; a single lost or doubled item in one combination of moves, splits, rebuilds and drops breaks it.", "anchors": ["src/tree.rs", "src/forest.rs", "src/node.rs", "src/heap.rs:drop_node", "src/into_iter.rs", "src/bfs_impls.rs"]}
{"id": "C53", "title": "Independence of the allocator; reuse of memory", "statement": "Results do not depend on where the allocator puts nodes and blocks. As long as it does not hand out memory that is in use (a live node, or any slot of a block not yet released), an allocator may use the same addresses again and again: every program has exactly the answers, panics, contents and order of destruction that the value-level specification gives; no node belongs to two variables or two places; nothing is leaked; when no variable holds anything, all memory has been given back. Two allocators give the same results.", "quantifier": "every sequence of calls of the exclusive-ownership API, of any length, and every choice of addresses by the allocator", "why_tests_cant": "A test sees one allocator; stale pointers (an old root_up, owner or block pointer that happens to name a new node) show only under particular reuse patterns.", "anchors": ["src/heap.rs:make_node", "src/heap.rs:drop_node", "src/node_vec.rs:NodeVec::new_raw_non_null", "src/node_vec.rs:decr_ref", "src/tree.rs", "src/forest.rs", "src/node.rs", "src/bfs_impls.rs"]}
{"id": "C54", "title": "Whole programs with shared nodes behave like programs on plain values", "statement": "Any sequence of calls of the API, shared nodes included (handles, weak handles, borrow guards, handle iterators, mixed with exclusive trees and forests), returns the values, panics and compiler rejections that the same sequence has on plain data: rose trees in variables, a list of rose trees with numbered nodes for the shared part, handles being numbers. Afterwards the exclusive values, the items destroyed and their order, and the tree below every handle are those of the plain data, and two handles refer to the same node exactly if they have the same number. Nodes live as long as a handle to them or to an ancestor exists; guards make conflicting calls panic and nothing else.", "quantifier": "every sequence of calls, of any length, in which no call is one the crate gives no meaning (advancing an IterRc whose node is gone: C44; into_tree with other handles: its safety contract) and clone/downgrade are not applied to nodes in contiguous blocks (C35, C36)", "why_tests_cant": "The interplay of shared handles, weak handles, guards, moves, detaches and drops over arbitrary histories cannot be enumerated; each test is one history.", "anchors": ["src/rc.rs:RcNode", "src/rc.rs:WeakNode", "src/rc.rs:Drop for RcNode", "src/iter_rc.rs:IterRc", "src/node.rs", "src/tree.rs", "src/forest.rs"]}
{"id": "C55", "title": "Conservation of items over whole histories with shared nodes", "statement": "At every point of a history with shared nodes, the items handed to the library so far (on construction, by set_data, by writing through a guard, by clones) are exactly: the items in exclusive values, plus the items of the shared nodes, every shared node counted once however many handles show it, plus the items destroyed, plus the items handed back. When no variable holds a value or a handle any more, everything has been destroyed or handed back, exactly once. If the items are pairwise different, none is ever in two places, destroyed twice, or still accessible after its destruction.", "quantifier": "every sequence of calls, of any length, under the conditions of C54", "why_tests_cant": "A leak or double drop depends on which handle, weak handle, guard or iterator is the last to keep a node; the possible histories are unbounded.", "anchors": ["src/rc.rs:Drop for RcNode", "src/rc.rs:RcNode", "src/rc.rs:WeakNode", "src/iter_rc.rs:IterRc", "src/node.rs", "src/tree.rs", "src/forest.rs"]}
{"id": "C56", "title": "Display and Debug with any writer", "statement": "Formatting a node, tree or forest with Display or Debug hands the documented pieces (items, parentheses, spaces, for Debug '@address ') to the writer in the documented order and stops at the first error, or panic, of the writer or of T::fmt; in every case no tree is changed. A writer that appends then holds a beginning of the full text, and the whole text if Ok was returned. Debug shows for every node its own address, in pre-order, all different. For RcNode the same holds, formatting panics exactly if it gets to a node whose data is mutably borrowed, and all borrows and handles taken on the way are given back even on error or panic; the addresses Debug shows there are those of the handles.", "quantifier": "every tree in every reachable state, every writer and T::fmt including failing and panicking ones", "why_tests_cant": "The writer and T::fmt are arbitrary user code that may fail at any of unboundedly many points in trees of any shape.", "anchors": ["src/macros.rs:impl_debug_display_for_node", "src/macros.rs:impl_debug_display_for_forest", "src/macros.rs:impl_debug_display_for_collection", "src/node.rs:Debug for Node", "src/rc.rs:impl_debug_display_for_node"]}
{"id": "C57", "title": "extend on a shared node", "statement": "handle.extend(iter) makes the trees of the iterator the last children of the node, in the order of the iterator, as seen through every handle, and changes nothing else. If the iterator panics midway, the trees it has handed out so far stay added and the ones it still owns are destroyed once each. If the data of the node is borrowed by a guard, the call panics at the first tree, no tree is changed and all trees of the iterator are destroyed once each; an iterator without trees succeeds even then.", "quantifier": "every reachable state with shared nodes outside the defects of C35/C36/C43/C44, every handle, every finite iterator of trees, also one that panics", "why_tests_cant": "States, handles and iterators are unbounded, and the panic may come at any point of the loop.", "anchors": ["src/rc.rs:Extend for RcNode", "src/rc.rs:RcNode::node_borrow_mut", "src/node.rs:Node::push_back"]}
{"id": "C58", "title": "Independence of the allocator with shared nodes", "statement": "Also for programs that use shared nodes, weak handles, guards and iterators, results do not depend on where the allocator puts nodes and blocks. The memory of a node may be used again as soon as it has been given back, which is when the node is gone and no weak handle refers to its box. Every program that the specification allows has exactly the answers, panics, contents, destroyed items and handle trees of the specification, which knows no addresses; a weak handle never upgrades to a node other than the one it was made from; two handles refer to the same node exactly if they do without reuse; nothing is leaked, and when all handles and exclusive values are gone all nodes and blocks have been given back.", "quantifier": "every sequence of calls of the whole API outside the defects of C35/C36/C43/C44, of any length, and every choice of addresses by the allocator that respects memory in use", "why_tests_cant": "A test sees one allocator; a stale weak handle or a stale parent pointer that happens to name a new node shows only under particular reuse patterns.", "anchors": ["src/heap.rs:make_node", "src/node_vec.rs:NodeVec", "src/rc.rs:RcNode", "src/rc.rs:WeakNode", "src/rc.rs:Drop for RcNode", "src/iter_rc.rs:IterRc"]}
{"id": "C59", "title": "Panics while a shared node is being dropped are contained", "statement": "If, while an RcNode handle is dropped, a destructor of the user's data panics or the drop conflicts with a borrow guard that was leaked with mem::forget, then the drop makes no invalid memory access, destroys no item twice, destroys only items it would have destroyed anyway, leaves exclusive values and handles into other trees as they were; and (false of the code) no later call through the remaining handles makes an invalid access.", "quantifier": "all reachable states with shared nodes, all handles, all positions of the panicking destructor run, all later calls", "why_tests_cant": "the position of the panic, the ownership pattern of the tree (which nodes are held elsewhere, which are in blocks) and the later calls are unbounded", "anchors": ["src/rc.rs: Drop for RcNode", "src/rc.rs: RcNode::pop_front", "src/rc.rs: RcNode::parent, is_root, detach, data"]}
{"id": "C60", "title": "Nodes cannot be moved out of their place", "statement": "Whatever safe code does with the node references (Pin<&mut Node<T>>) and Node values that the API gives it — mem::swap, moving a Node made by Node::default() — no later call accesses freed memory, and parent() stays the inverse of the child relation. (False of the code: Node<T> is Unpin and Default.)", "quantifier": "every reachable state, all trees and all items", "why_tests_cant": "Tests use the references only to call methods; that the Pin in the signatures guarantees nothing is a statement about all client programs, and the damage shows only as a use after free.", "anchors": ["src/node.rs: Node, Default for Node, parent, push_back", "src/tree.rs: root_mut, Drop for Tree", "src/heap.rs: drop_node"]}
{"id": "C61", "title": "Threads do not interfere", "statement": "Trees and forests that have been moved to other threads (inside TreeWalk/ForestWalk, which are Send) or are shared by reference (they are Sync) can be used there without synchronisation: however the memory accesses of the threads interleave, there is no data race, no access to memory that is not live, every thread gets exactly the results, contents and order of destruction that its own calls give when it runs alone, every thread finishes after a bounded number of its own steps, and nothing is leaked. (False of the code for values that are parts of one contiguous block: the block's count is not atomic.)", "quantifier": "every history before the threads start, every distribution of the values, any number of threads, every program of each thread, every interleaving of single memory accesses, every allocator", "why_tests_cant": "It is a statement about all schedules; a test sees a few of them, and a lost decrement only leaks.", "anchors": ["src/walk.rs: unsafe impl Send/Sync for TreeWalk, ForestWalk; From<Tree>, From<TreeWalk>, From<Forest>, From<ForestWalk>", "src/node_vec.rs: decr_ref", "src/rc.rs: Cell::decr (trait RefCount)", "src/heap.rs: drop_node"]}
{"id": "C62", "title": "Trees of other types", "statement": "A client that implements Split (and ExactSizeIterator) for its own type of trees can iterate over and convert them with BfsTree::from / BfsForest::from: the visits come in breadth-first order with the sizes the client reports, None after the last; whatever the client reports, Tree::from / Forest::from (after any map) do exactly what they do with the list of these visits, and trees without end never make them return or run for ever; if all reported sizes are true, the result is the client's tree (one root) or forest (BfsForest::from given its true size), with the closure applied in breadth-first order, and nothing else changes. Wrapping in Bfs and selecting gives back the iterator and size that were wrapped, and None from the selector of the other kind.", "quantifier": "all implementations of Split / ExactSizeIterator (pure functions), honest or not, all finite or endless families of trees they present, all closures, all sizes passed to from, all reachable states of the memory", "why_tests_cant": "Quantifies over every client implementation of a public trait and every tree of any shape; tests use the crate's own three implementations.", "anchors": ["src/bfs.rs: Split, Splitted, BfsTree::from, BfsForest::from, BfsTree::map, BfsForest::map, wrap, Bfs::{iter, iter_and_size, tree_iter, forest_iter}", "src/bfs_impls.rs: From<BfsTree> for Tree, From<BfsForest> for Forest"]}
{"id": "C63", "title": "Work done by each call is bounded by the shape of the trees involved", "statement": "Every call makes a number of accesses to memory (fields of nodes, headers of blocks, allocations, releases, destructors) that is bounded by an explicit function of the call and of the shape of the trees: creation, abandon and into_iter are constant; push/pop/insert/detach at a node of depth d cost O(d) after the node is found, hence O(1) at the root, independent of the number of children and descendants; append/prepend cost O(d + number of moved children), independent of their descendants; drop, clone, rebuild and from_tuple are linear in the number of nodes, and drop is not cheaper than that; k calls of a breadth-first iterator cost O(k). A program that works at the ends of root lists only costs at most a constant per call however large its trees become.", "quantifier": "for all reachable states, all calls with all arguments, all client programs", "why_tests_cant": "A benchmark samples sizes; the bound is for every shape, history and program, and rules out a loop over siblings or descendants that only shows on shapes nobody measured.", "anchors": ["src/node.rs: Node::{push_back,push_front,pop_back,pop_front,append,prepend,detach,insert_prev_sib,insert_next_sib,inc_sizes,dec_sizes}", "src/tree.rs: Drop for Tree", "src/forest.rs: Drop for Forest", "src/bfs.rs: Splitted", "src/bfs_impls.rs: From<BfsTree> for Tree"]}
{"id": "C64", "title": "Stack depth of drop, hash, display and comparisons is exactly the height of the tree", "statement": "Dropping a Tree or Forest, hashing, printing (Display and Debug, with any writer) or comparing nodes takes exactly as many nested calls as the tree has levels (printing stops early when the writer fails; for a forest, the levels of its highest tree; in a drop, a Forest's own root is a level, an IntoIter drops its trees one after the other): with room for that many calls the result is the one of the unlimited call, with room for one less the stack overflows (comparisons: at most the levels of the left operand, and that many when the operands are equal). The drop of an RcNode takes one call for a node with another owner (a parent or another handle), otherwise as many as its tree has levels down to the nodes with other handles, those included. Hashing, printing and comparing RcNodes takes as many nested calls as for plain nodes, as long as no node in the way is mutably borrowed (then the call panics where it meets that node). Trees of every height can be built with a constant amount of work per call, so no stack size is enough for all values that safe code builds.", "quantifier": "for all reachable states (exclusive and shared), all values, nodes and handles, all stack limits", "why_tests_cant": "A test finds one depth that works or one that crashes; the exact requirement for every shape, and the absence of a sufficient stack, are statements about all trees and all limits.", "anchors": ["src/tree.rs: Drop for Tree", "src/forest.rs: Drop for Forest", "src/into_iter.rs: Drop for IntoIter", "src/macros.rs: impl_{debug_display,order_relations,hash}_for_node", "src/rc.rs: Drop for RcNode"]}
{"id": "C65", "title": "mem::forget is harmless", "statement": "A program may pass any value of the API to mem::forget - a Tree, a Forest, an owning iterator, an RcNode, a WeakNode, an IterRc, a Ref or RefMut guard - at any point. Every later call returns, panics and destroys exactly what it would if the forgotten value were still held somewhere out of reach: a forgotten handle keeps its node alive, a forgotten guard keeps it borrowed, a forgotten tree's items are never destroyed. No later call is undefined behaviour. Excepted is only the drop (or into_tree) of a handle whose guard has been forgotten, see C59.", "quantifier": "all programs of API calls and mem::forget statements (without clone/downgrade of a handle to a node in a block, C35/C36, and without the calls excluded by C54)", "why_tests_cant": "leaks can be inserted between any two calls of any history; tests try a few", "anchors": ["src/rc.rs RcNode, WeakNode", "src/iter_rc.rs IterRc", "src/tree.rs Tree", "src/forest.rs Forest"]}
{"id": "C66", "title": "Destructors of items may use the crate", "statement": "The data items may have destructors that call the crate themselves, on any tree, forest or iterator the program can reach: make new ones, change others, drop others and so run further destructors. While a value is dropped (Tree, Forest, IntoIter), a data item is replaced through data_mut(), or a tree handed to a panicking insert_prev_sib / insert_next_sib is dropped, every call made by a destructor sees a consistent crate and has exactly its documented effect; the items of the dropped value are destroyed children before parents, each destructor's effects taking place at its turn; values that are being dropped or are mutably borrowed cannot be reached. No history of this kind is undefined behaviour, and when no value is left no memory is left.", "quantifier": "all programs, all families of destructors (item -> list of calls), all nesting depths", "why_tests_cant": "re-entrant destructors multiply histories: each item of each dropped tree may start an arbitrary program at that point of the drop loop", "anchors": ["src/tree.rs Drop for Tree", "src/forest.rs Drop for Forest", "src/into_iter.rs Drop for IntoIter", "src/heap.rs drop_node", "src/node.rs Node::data_mut, Node::insert_prev_sib, Node::insert_next_sib"]}
{"id": "C67", "title": "No item lost or destroyed twice when destructors use the crate", "statement": "In a program whose items have destructors that themselves make, change and drop trees (re-entrantly, inside a drop, a replacement of an item, or a panicking insert_*_sib), every item that the program or a destructor brings in is at the end exactly once in a tree, destroyed, or handed out: no destructor runs twice for one item and none is skipped.", "quantifier": "every reachable state, every program, every assignment of destructor bodies to items, every nesting depth", "why_tests_cant": "The damage (an item dropped twice or lost) depends on what the destructor does to which tree at which moment of a drop; the combinations are unbounded.", "anchors": ["src/tree.rs: Drop for Tree", "src/forest.rs: Drop for Forest", "src/into_iter.rs: Drop for IntoIter", "src/heap.rs: drop_node", "src/node_vec.rs: decr_ref, Drop"]}
{"id": "C68", "title": "Panicking or failing trait implementations leave shared nodes as they were", "statement": "If an implementation of PartialEq, PartialOrd, Ord, Hash or Display of the data type panics while RcNode handles are compared, hashed or printed (or Display returns an error), the panic (or error) reaches the caller at that point, and every borrow taken and every handle made on the way is released: counts, borrow states and data are exactly as before. Which items are looked at, and so whether a panic occurs, is determined by the comparison order. Text printed before an error is the beginning of the full text.", "quantifier": "every reachable state of a program using RcNode (outside of the defects of C35, C36, C43, C44), every two handles, all partial implementations of the data type's traits", "why_tests_cant": "All trees, all histories of handles and borrows, all places where user code may panic.", "anchors": ["src/macros.rs: impl_order_relations_for_node, impl_hash_for_node, impl_debug_display_for_node", "src/rc.rs: data, node_borrow, Drop for RcNode, 519-521", "src/iter_rc.rs: IterRc::next"]}
{"id": "C69", "title": "Borrows held across other calls keep seeing the same nodes", "statement": "A program may hold any number of `&Node` references, iterators over children and breadth-first iterators, go from node to node with parent(), front(), back(), and between their uses make any calls the borrow checker allows: calls that only read the borrowed values (also cloning them) and arbitrary calls on other values. Every such borrow goes on referring to the value as it was when the borrow was made: a held node shows the same data, degree and node count, navigation leads to the same nodes, an iterator continues where it stood and in total yields the same nodes as if run in one go. No call moves or changes a node of a borrowed value.", "quantifier": "every program that makes and uses borrows in any order and interleaving with any other calls", "why_tests_cant": "All interleavings of any number of live borrows with arbitrary other calls on arbitrary values.", "anchors": ["src/iter.rs: Iter, CountedRawIter::next", "src/bfs.rs: Splitted::next", "src/bfs_impls.rs: Split for &Node, bfs, bfs_children", "src/node.rs: parent, front, back, iter, data, degree, node_count"]}
{"id": "C70", "title": "Mutable breadth-first iterators held across other calls hand out every item once, without aliasing", "statement": "A program may keep a mutable breadth-first iterator (`bfs_mut`, `bfs_children_mut`) alive, keep any of the `&mut T` it has handed out, read and assign through them in any order, and make any calls on other values in between. The iterator still hands out the nodes level by level, each with its number of children and descendants. At no time do two of the references held lead to the same item, and no shared borrow of the tree coexists with them. An assignment changes that item and nothing else and destroys the old one; no node moves.", "quantifier": "every program that makes and uses borrows in any order and interleaving with any other calls the borrow checker allows", "why_tests_cant": "All interleavings of visits, reads, assignments and other calls on arbitrary trees; aliasing of `&mut T` is not observable by a test.", "anchors": ["src/bfs.rs: Splitted::next", "src/bfs_impls.rs: Split for Pin<&mut Node>, bfs_mut, bfs_children_mut", "src/iter.rs: IterMut", "src/node.rs: data_mut"]}
{"id": "C71", "title": "Walks kept across other calls are independent", "statement": "A program may keep any number of `TreeWalk`s and `ForestWalk`s, call their methods by turns, and make any calls on other values in between. What a walk shows depends only on the calls made on this walk and on the tree or forest that was moved into it: it is the cursor of C24-C27. In particular, calls of `next` show the depth-first tour one visit at a time whatever else is done. While the value is in the walk, none of its nodes moves or changes, and the conversion back gives the value that was moved in. Nothing of this accesses memory that is not a node.", "quantifier": "every program that makes, uses and converts back walks, in any order and interleaving with any other calls the borrow checker allows", "why_tests_cant": "All interleavings of several walks and other calls, on arbitrary trees.", "anchors": ["src/walk.rs: TreeWalk, ForestWalk, Walk, From<Tree> for TreeWalk, From<TreeWalk> for Tree, From<Forest> for ForestWalk, From<ForestWalk> for Forest"]}
{"id": "C72", "title": "Mutable node references stay with their nodes", "statement": "A program may hold any number of `Pin<&mut Node>` (from `root_mut`, `iter_mut`, `front_mut`, …) while it goes on calling, through them and otherwise. A call through a reference always does what the same method does on the node at the place where the referred node is at that time, wherever the node has been moved to (by detach, pop, push, insertion, append, …), into whatever variable and position; the result, the new contents of all variables, the destructions and the references made of it agree with plain tree values in which the node is marked. The reference never refers to another node, and no call through it touches freed memory, as long as its node is in a tree or forest of the program and the tree handed over is not the one that contains the node.", "quantifier": "all programs: any sequence of ordinary calls, of references taken (to any node, or to a child of the node of a reference, several to one node), and of all node methods called through references, for any item type and any shapes; it excludes only uses whose node has been destroyed or is in an IntoIter, and insertions of a tree into itself", "why_tests_cant": "The claim ranges over all histories in which references are held while nodes travel between trees, and over which raw addresses then mean which node; a test sees a few histories, and a stale address may happen to work.", "anchors": ["src/node.rs: Node::{iter_mut, front_mut, back_mut, data_mut, push_front, push_back, pop_front, pop_back, prepend, append, insert_prev_sib, insert_next_sib, detach}", "src/tree.rs: Tree::root_mut, root_mut_", "src/forest.rs: Forest::iter_mut, root_mut_", "src/iter.rs: IterMut"]}
{"id": "C73", "title": "Mutable child iterators kept while the program goes on", "statement": "A program may keep an `IterMut` over the children of a node while it goes on changing things through the nodes already yielded (insert before and after them, detach them, change their children and items) and in any other value. As long as the children not yet yielded remain neighbours in the old order, the iterator yields exactly the children there were when it was made, each once and in order, and then none for ever; nodes inserted or added later are never yielded and nodes taken away after being yielded are not skipped or repeated. More generally each `next` yields the node that followed the last yielded one at the time that was yielded, and `next` changes nothing.", "quantifier": "all reachable states, all nodes of all trees and forests, all programs run between any number of calls of `next`, any item type", "why_tests_cant": "The claim ranges over all programs interleaved with all calls of `next`; an iterator that reads its next node too late (after the program has changed it) or counts the wrong nodes behaves well in tests that only change items.", "anchors": ["src/iter.rs: IterMut, CountedRawIter::next, UncountedRawIter::next", "src/node.rs: Node::iter_mut", "src/forest.rs: Forest::iter_mut"]}
