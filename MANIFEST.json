{"claims": [
 {"property": "C01", "status": "proved", "theorems": ["Trees.c01_pushBack", "Trees.c01_pushFront"], "note": ""},
 {"property": "C02", "status": "proved", "theorems": ["Trees.c02_pop_empty", "Trees.c02_popFront", "Trees.c02_popBack"], "note": ""},
 {"property": "C03", "status": "proved", "theorems": ["Trees.c03_append", "Trees.c03_prepend"], "note": ""},
 {"property": "C04", "status": "proved", "theorems": ["Trees.c04_insertPrevSib", "Trees.c04_insertNextSib"], "note": ""},
 {"property": "C05", "status": "proved", "theorems": ["Trees.c05_detach", "Trees.c05_detach_reinsert"], "note": ""},
 {"property": "C06", "status": "proved", "theorems": ["Trees.c06_child", "Trees.c06_tree", "Trees.c06_forest"], "note": ""},
 {"property": "C07", "status": "proved", "theorems": ["Trees.c07_parent_child", "Trees.c07_parent_root"], "note": ""},
 {"property": "C08", "status": "proved", "theorems": ["Trees.c08_iter", "Trees.c08_data"], "note": ""},
 {"property": "C09", "status": "proved", "theorems": ["Trees.c09_iterMut"], "note": "iter_mut() loop with insert_prev_sib / insert_next_sib / data_mut / detach in the body"},
 {"property": "C10", "status": "proved", "theorems": ["Trees.c10_step", "Trees.c10_never_bad", "Trees.c10_programs"], "note": ""},
 {"property": "C11", "status": "proved", "theorems": ["Trees.c11_root_panics", "Trees.c11_only_root"], "note": ""},
 {"property": "C12", "status": "proved", "theorems": ["Trees.c12_abandon"], "note": ""},
 {"property": "C13", "status": "proved", "theorems": ["Trees.c13_intoIter", "Trees.c13_len", "Trees.c13_next", "Trees.c13_drop_midway"], "note": ""},
 {"property": "C14", "status": "proved", "theorems": ["Trees.c14_drop", "Trees.c14_no_sharing", "Trees.c14_no_leak", "Trees.c14_all_released"], "note": ""},
 {"property": "C15", "status": "proved", "theorems": ["Trees.c15_not_early", "Trees.c15_not_leaked", "Trees.c15_disjoint"], "note": "no leak / no early release of contiguous blocks, exclusive API"},
 {"property": "C16", "status": "partial", "theorems": ["Trees.c16_from_tuple_partial", "Trees.c16_from_tuple_iff", "Trees.c16_refuted", "Trees.c16_full_refuted"], "note": "The full claim is false of the code (c16_refuted, c16_full_refuted: (0,(1,(2,3)),4)). Proved: correct, contiguous, nothing dropped on exactly the shapes Tup.good; on every other shape an item is destroyed or the call does not return."},
 {"property": "C17", "status": "partial", "theorems": ["Trees.c17_from_tuple_partial", "Trees.c17_from_tuple_iff", "Trees.c17_refuted", "Trees.c17_full_refuted"], "note": "The full claim is false of the code (c17_refuted, c17_full_refuted). Proved on exactly the good shapes, as C16."},
 {"property": "C18", "status": "proved", "theorems": ["Trees.c18_bfs", "Trees.c18_bfsChildren", "Trees.levelOrder_once", "Trees.bfsCalls_get", "Trees.bfsCalls_none"], "note": "bfs(), bfs_children(), Forest::bfs()"},
 {"property": "C19", "status": "proved", "theorems": ["Trees.c19_from_bfs", "Trees.c19_from_bfs_forest", "Trees.c19_from_intoBfs", "Trees.c19_from_intoBfs_forest"], "note": "equal tree, stored in one block of its own"},
 {"property": "C20", "status": "proved", "theorems": ["Trees.c20_clone", "Trees.c20_clone_forest", "Trees.c20_independent"], "note": ""},
 {"property": "C21", "status": "proved", "theorems": ["Trees.c21_mapBfs", "Trees.c21_mapBfs_fn", "Trees.c21_mapBfsForest", "Trees.c21_mapBfsForest_fn", "Trees.c21_rebuildTree", "Trees.c21_rebuildForest", "Trees.updLevel_spec", "Trees.updLevelL_spec"], "note": "the closure returns a value of the same type in the machine (the machine has one data type)"},
 {"property": "C22", "status": "proved", "theorems": ["Trees.c22_intoBfs", "Trees.c22_exhausted", "Trees.bfs_conserve"], "note": ""},
 {"property": "C23", "status": "proved", "theorems": ["Trees.c23_bfsMut_root", "Trees.c23_bfsMut_child", "Trees.c23_bfsChildrenMut"], "note": ""},
 {"property": "C24", "status": "proved", "theorems": ["Trees.c24_tour", "Trees.c24_next", "Trees.c24_preorder", "Trees.c24_nodup", "Trees.c24_complete", "Trees.c41_session", "Trees.c24_default"], "note": "Model of walk.rs; forward's loop is bounded by 3 iterations in the model and never reaches the bound in any session (c41_session), so it terminates."},
 {"property": "C25", "status": "proved", "theorems": ["Trees.c25_session", "Trees.c25_future", "Trees.c25_on_tour", "Trees.c25_continues", "Trees.c25_toChild", "Trees.c25_toSib", "Trees.c25_toParent", "Trees.c25_toParent_root", "Trees.c25_getters", "Trees.c25_finished", "Trees.c25_functional"], "note": "Any sequence of cursor calls; also covers sessions containing failed jumps, as long as get() shows a visit."},
 {"property": "C26", "status": "proved", "theorems": ["Trees.c26_stop", "Trees.c26_no_effect", "Trees.c26_restart"], "note": ""},
 {"property": "C27", "status": "partial", "theorems": ["Trees.c27_leaf_partial", "Trees.c27_toSib_resume_partial", "Trees.c27_toChild_resume_partial", "Trees.c27_toSib_get_panics", "Trees.c27_toChild_get_panics", "Trees.c27_refuted"], "note": "The full claim is false of the code: after a failed to_sib(n)/to_child(n>=degree) get() panics (proved in general and for a concrete state). Proved: a failed to_child on a leaf leaves the cursor usable, and after a failed jump forward/to_parent/get_parent still work."},
 {"property": "C28", "status": "proved", "theorems": ["Trees.c28_eq", "Trees.c28_eq_structural", "Trees.c28_ne", "Trees.c28_forest"], "note": ""},
 {"property": "C29", "status": "proved", "theorems": ["Trees.c29_cmp", "Trees.c29_cmp_forest", "Trees.c29_swap", "Trees.c29_swapL", "Trees.c29_total", "Trees.c29_equal", "Trees.c29_equalL", "Trees.c29_partial_agrees", "Trees.c29_partial_agreesL"], "note": ""},
 {"property": "C30", "status": "proved", "theorems": ["Trees.c30_hash", "Trees.c30_hash_forest", "Trees.c30_equal_hash"], "note": ""},
 {"property": "C31", "status": "proved", "theorems": ["Trees.c31_display", "Trees.c31_display_forest", "Trees.c31_injective", "Trees.c31_injective_forest", "Trees.c31_unambiguous"], "note": ""},
 {"property": "C32", "status": "proved", "theorems": ["Trees.c32_operator", "Trees.c32_expression"], "note": "all 24 operator impls in one theorem, and whole expressions"},
 {"property": "C33", "status": "partial", "theorems": ["Trees.c33_visitors_partial", "Trees.c33_preorder", "Trees.c33_preorder_forest", "Trees.c33_preorder_with_size_hint", "Trees.c33_preorder_with_size_hint_forest", "Trees.c33_postorder", "Trees.c33_postorder_forest", "Trees.c33_preorder_data", "Trees.c33_postorder_data", "Trees.c33_size", "Trees.c33_size_forest", "Trees.c33_height", "Trees.c33_height_forest", "Trees.c33_descendants", "Trees.c33_descendants_forest", "Trees.c33_postorder_with_size_hint_is_preorder", "Trees.c33_postorder_with_size_hint_refuted", "Trees.c33_postorder_with_size_hint_partial"], "note": "The claim about postorder_with_size_hint is false of the code: it reports the pre-order visits. All else proved."},
 {"property": "C34", "status": "proved", "theorems": ["Trees.shared_safe", "Trees.shared_exclusive", "Trees.c34_accessible", "Trees.c34_stable", "Trees.c34_drop", "Trees.released_iff", "Trees.c34_once", "Trees.c34_new_roots", "Trees.c34_no_leak", "Trees.c34_all_released"], "note": "All states reachable by calls outside of the known defects (SReachable/Safe, Model/RcView.lean; the defects are C35, C36, C44). shared_safe: no undefined behaviour; released_iff states what is released without recursion."},
 {"property": "C35", "status": "partial", "theorems": ["Trees.c35_clone_partial", "Trees.c35_refuted", "Trees.c35_exact_partial", "Trees.c35_refuted_every"], "note": "Exactly characterised (c35_exact_partial): any number of drop(k.clone()) changes nothing iff k is not a handle into a contiguous block. For every handle into a block, in every state, some number of repetitions makes k unusable (c35_refuted_every): Clone for RcNode does not increment the count of the block."},
 {"property": "C36", "status": "partial", "theorems": ["Trees.c36_downgrade_partial", "Trees.c36_upgrade_partial", "Trees.c36_upgrade_none_partial", "Trees.c36_gone_partial", "Trees.c36_drop_weak_partial", "Trees.c36_no_keep_partial", "Trees.c36_refuted", "Trees.c36_refuted_upgrade", "Trees.c36_exact_partial", "Trees.c36_refuted_every"], "note": "Proved for nodes outside of contiguous blocks, and exactly characterised (c36_exact_partial). For every handle into a block some number of drop(k.downgrade()) makes k unusable (c36_refuted_every); c36_refuted_upgrade: upgrade may be undefined behaviour. downgrade does not increment the count of the block but drop decrements it."},
 {"property": "C37", "status": "proved", "theorems": ["Trees.c37_distinct", "Trees.c37_same_tree", "Trees.c37_overlap", "Trees.c37_push_back", "Trees.c37_push_front", "Trees.c37_append", "Trees.c37_prepend", "Trees.c37_insert_prev_sib", "Trees.c37_insert_next_sib", "Trees.c37_insert_sib_root", "Trees.c37_pop_front", "Trees.c37_pop_back", "Trees.c37_pop_none", "Trees.c37_detach", "Trees.c37_detach_root", "Trees.c37_data_mut", "Trees.c37_observe", "Trees.c37_front", "Trees.c37_back", "Trees.c37_parent", "Trees.c37_iter_rc", "Trees.c37_iter_next", "Trees.c37_iter_end", "Trees.c37_deep_clone", "Trees.c37_iter_len", "Trees.c37_iter_clone"], "note": "Every mutating call: effect on what every handle shows, with node identities; front/back/parent/iter_rc give handles to the actual nodes; deep_clone is independent. States as for C34."},
 {"property": "C38", "status": "proved", "theorems": ["Trees.c38_borrow", "Trees.c38_borrow_mut", "Trees.c38_exclusive", "Trees.c38_conflict_shared", "Trees.c38_conflict_mut", "Trees.c38_conflict_arg", "Trees.c38_guard_read", "Trees.c38_guard_write", "Trees.c38_release"], "note": "Guards are values of the machine; conflicts panic and change nothing (an argument moved into the call is dropped). States as for C34. Guards leaked by mem::forget are not modelled."},
 {"property": "C39", "status": "proved", "theorems": ["Trees.c39_from_tree", "Trees.c39_look_tree", "Trees.c39_into_tree", "Trees.c39_into_tree_panics", "Trees.c39_round_trip"], "note": "States as for C34."},
 {"property": "C40", "status": "proved", "theorems": ["Trees.c40_setData_root", "Trees.c40_setData_child"], "note": ""},
 {"property": "C41", "status": "proved", "theorems": ["Trees.c41_session", "Trees.c41_same"], "note": ""},
 {"property": "C42", "status": "proved", "theorems": ["Trees.c42_add", "Trees.c42_sub", "Trees.c42_add_sub", "Trees.c42_underflow", "Trees.c42_overflow", "Trees.c42_assign", "Trees.c42_add_comm"], "note": "both overflow-checked and wrapping profiles"},
 {"property": "C43", "status": "partial", "theorems": ["Trees.c43_detach_partial", "Trees.c43_use_partial", "Trees.c43_use_child_partial", "Trees.c43_refuted", "Trees.c43_exact_partial", "Trees.c43_refuted_every"], "note": "The node is the root of the returned tree and usable while that tree exists, and only while some value holds it (c43_exact_partial). Refuted for every node that can be detached, after the drop of the tree (c43_refuted_every): detach takes Pin<&mut Self> for the call only, so safe code can drop the tree and go on using the node."},
 {"property": "C44", "status": "partial", "theorems": ["Trees.c44_next_partial", "Trees.c44_refuted", "Trees.c37_iter_next", "Trees.c44_exact_partial", "Trees.c44_refuted_every"], "note": "next() returns normally iff the current node is shown by some handle (c44_exact_partial); otherwise undefined behaviour or a panic (c44_refuted_every): IterRc holds a raw pointer and no handle."},
 {"property": "C45", "status": "proved", "theorems": ["Trees.c45_step", "Trees.c45_never_bad", "Trees.c45_programs", "Trees.c45_copy_panics", "Trees.c45_copy_forest_panics", "Trees.c45_rebuild_panics", "Trees.firstPanic_spec", "Trees.firstPanic_none_iff", "Trees.unwound_conserve", "Trees.c45_no_leak_refuted"], "note": "Every call in every history with caught panics refines the specification; leaks of the half-built block are real (c45_no_leak_refuted) and not claimed away."},
 {"property": "C46", "status": "proved", "theorems": ["Trees.c46_sizes", "Trees.c46_blocks", "Trees.c46_values"], "note": "Bounds on every stored counter in every reachable state of the exclusive machine; the model computes in Nat, these bounds justify it for usize."},
 {"property": "C47", "status": "partial", "theorems": ["Trees.c47_tree_partial", "Trees.c47_forest_partial", "Trees.c47_panics_partial", "Trees.c47_empty_partial", "Trees.visitList_injective", "Trees.c47_refuted_ub", "Trees.c47_refuted_count", "Trees.c47_accepts_partial", "Trees.c47_overruns_partial", "Trees.c47_trichotomy_partial", "Trees.c47_forest_accepts_partial", "Trees.c47_forest_overruns_partial", "Trees.c47_forest_trichotomy_partial", "Trees.c47_builds_partial", "Trees.c47_forest_builds_partial", "Trees.told_unique", "Trees.c47_truthful_partial", "Trees.c47_refuted_drop", "Trees.c47_refuted_roots"], "note": "The property is false of the code (c47_refuted_ub: out-of-bounds write; c47_refuted_count: accepted with false counts; c47_refuted_drop: accepted but its destructor panics; c47_refuted_roots: out-of-bounds write with an honest Split and two roots). Proved instead, for every sequence of visits and every memory: exactly when it is accepted, overruns the block, or panics; exactly what is built when accepted, and exactly when its reports are true; consistent sequences give the tree they describe; a consistent iterator that panics leaves everything else alone."},
 {"property": "C48", "status": "proved", "theorems": ["Trees.c48_view", "Trees.c48_distinct", "Trees.c48_apart", "Trees.c48_moves", "Trees.c48_shows", "Trees.c48_step", "Trees.c48_frame", "Trees.c48_program", "Trees.c48_push_back", "Trees.c48_detach", "Trees.c48_abandon", "Trees.Trees.c48_items", "Trees.Trees.c48_assign"], "note": "Items stay in their nodes unless assigned (c48_items, c48_assign)."},
 {"property": "C49", "status": "proved", "theorems": ["Trees.c49_opaque"], "note": "any function on items, whole programs"},
 {"property": "C50", "status": "proved", "theorems": ["Trees.c50_eq_exact", "Trees.c50_ne_exact", "Trees.c50_cmp_exact", "Trees.c50_pcmp_exact", "Trees.c50_eq", "Trees.c50_cmp", "Trees.c50_pcmp", "Trees.c50_unlocked", "Trees.c50_equal_hash", "Trees.c50_hash", "Trees.c50_display"], "note": "Comparison/order/hash/Display through RcNode handles: results, panics and absence of effects, in every state reachable by Safe calls."},
 {"property": "C51", "status": "proved", "theorems": ["Trees.c51_forget", "Trees.c51_drop_panics", "Trees.c51_drop_tree", "Trees.c51_drop_forest", "Trees.c51_drop_iter", "Trees.c51_drop_returns", "Trees.c51_write_root", "Trees.c51_write_child", "Trees.c51_never_bad", "Trees.c51_complete_refuted", "Trees.dropEach_eq", "Trees.dropEach_sub", "Trees.postUntil_sub", "Trees.c45_step", "Trees.c45_programs"], "note": "Tree, Forest and IntoIter drops with a panicking destructor, forget, writes whose old item panics."},
 {"property": "C52", "status": "proved", "theorems": ["Trees.c52_step", "Trees.c52_panic", "Trees.c52_programs", "Trees.c52_all_destroyed", "Trees.c52_never_twice", "Trees.c52_distinct"], "note": "Exact balance for programs without panicking user code, at-most balance with panics and forgotten values."},
 {"property": "C53", "status": "proved", "theorems": ["Trees.c53_programs", "Trees.c53_no_sharing", "Trees.c53_no_leak", "Trees.c53_all_released", "Trees.c53_independent", "Trees.c53_bump", "Trees.fresh_bump"], "note": "stepA/execA repeat the machine with an arbitrary allocator (a sequence of addresses that may repeat); none = the allocator handed out memory in use. Simulation by the machine of C10, whose addresses are never reused."},
 {"property": "C54", "status": "proved", "theorems": ["Trees.c54_program", "Trees.c54_no_blocks", "Trees.c54_no_count"], "note": "Whole programs over exclusive and shared values refine the executable specification Spec/SharedStore.lean: same results, panics, rejections, contents, destroyed items in order, node identities. c54_program excludes calls without a meaning (spec says bad) and clone/downgrade on nodes in blocks (false there: C35, C36); c54_no_blocks: no condition on memory for programs that build no block; c54_no_count: none for programs without clone/downgrade."},
 {"property": "C55", "status": "proved", "theorems": ["Trees.c55_program", "Trees.c55_end", "Trees.c55_once", "Trees.c55_no_blocks"], "note": "Every item brought in is held, shared (once), destroyed or handed out; under the conditions of C54."},
 {"property": "C56", "status": "proved", "theorems": ["Trees.c56_display", "Trees.c56_debug", "Trees.c56_display_forest", "Trees.c56_debug_forest", "Trees.c56_display_shared", "Trees.c56_debug_shared", "Trees.c56_prefix", "Trees.c56_text", "Trees.c56_debug_addresses"], "note": "display/debug of nodes, trees, forests and shared nodes with an arbitrary failing or panicking writer"},
 {"property": "C57", "status": "proved", "theorems": ["Trees.c57_extend", "Trees.c57_extend_broken", "Trees.c57_extend_conflict", "Trees.c57_extend_nothing"], "note": "extend: success, panicking iterator, conflict, empty iterator"},
 {"property": "C58", "status": "proved", "theorems": ["Trees.c58_program", "Trees.c58_same", "Trees.c58_identity", "Trees.c58_no_leak", "Trees.c58_all_released", "Trees.c58_bump"], "note": "Lock-step simulation of the run with reuse and the run without; contract of the allocator: no place in use, no box that a weak handle refers to (checked at the end of the call that allocates)."},
 {"property": "C59", "status": "partial", "theorems": ["Trees.c59_refuted_destructor", "Trees.c59_refuted_forgotten_guard", "Trees.c59_ordinary", "Trees.c59_late", "Trees.c59_panic_partial", "Trees.c59_forget"], "note": "False of the code: after a panic in Drop for RcNode the remaining children of a released node keep a dangling parent pointer (c59_refuted_destructor, c59_refuted_forgotten_guard). Proved: the drop itself panics without invalid access, destroys a prefix of the doomed items and otherwise only doomed items, none twice, and other trees and exclusive values are unaffected; without panics nothing changes."},
 {"property": "C60", "status": "partial", "theorems": ["Trees.c60_refuted_swap", "Trees.c60_refuted_parent", "Trees.c60_refuted_move", "Trees.c60_node_partial", "Trees.c60_moves"], "note": "False of the code (Node<T> is Unpin and Default): refuted for every reachable state. Proved: a node that is not moved after it got children is the parent of its children."},
 {"property": "C61", "status": "partial", "theorems": ["Trees.c61_no_race_partial", "Trees.c61_no_failure_partial", "Trees.c61_results_partial", "Trees.c61_independent_partial", "Trees.c61_wait_free_partial", "Trees.c61_no_leak_partial", "Trees.c61_progress_partial", "Trees.c61_readers", "Trees.c61_refuted_race", "Trees.c61_refuted_leak", "Trees.c61_drops_race", "Trees.c61_exact", "Trees.c61_mixed_no_race_partial", "Trees.c61_mixed_no_failure_partial", "Trees.c61_mixed_results_partial", "Trees.c61_mixed_independent_partial", "Trees.c61_mixed_wait_free_partial", "Trees.c61_mixed_shared_partial", "Trees.c61_mixed_no_leak_partial", "Trees.c61_mixed_progress_partial"], "note": "False of the code for values that are parts of one contiguous block (c61_refuted_race: data race; c61_refuted_leak: lost decrement). Proved for values that share no block (hypothesis Separate; satisfied e.g. by conc_separate), for every schedule; the part about shared references (Sync) is proved without restriction on the values for reading calls (c61_readers). c61_mixed_*: threads that own some values and have shared references to others, which they read and copy (deep_clone, map, rebuild) while the other threads do the same and change what they own (Props/ConcMix.lean; hypotheses met in Props/ConcMixWitness.lean)."},
 {"property": "C62", "status": "proved", "theorems": ["Trees.c62_visits", "Trees.c62_tree_any", "Trees.c62_forest_any", "Trees.c62_endless", "Trees.c62_endless_forest", "Trees.c62_tree", "Trees.c62_forest", "Trees.c62_none", "Trees.c62_select"], "note": "Clients' implementations are modelled as pure functions (no interior mutability shared between iterators). For implementations that lie about sizes the result is that of C47, which can be a memory error; c47_refuted_roots shows one with an honest implementation and two roots."},
 {"property": "C63", "status": "proved", "theorems": ["Trees.c63_cost", "Trees.c63_counted", "Trees.c63_program", "Trees.c63_lower", "Trees.c63_drop_exact", "Trees.c63_linear"], "note": "Explicit budgets for all calls; whole programs; the counted run is the call; lower bound for drops; linear bound for programs at the ends."},
 {"property": "C64", "status": "proved", "theorems": ["Trees.c64_drop", "Trees.c64_deep", "Trees.c64_hash", "Trees.c64_display", "Trees.c64_eq", "Trees.c64_cmp", "Trees.c64_partial_cmp", "Trees.c64_rc_drop", "Trees.c64_rc_enough", "Trees.c64_rc_only", "Trees.c64_rc_deep", "Trees.Trees.c64_debug", "Trees.Trees.c64_display_writer", "Trees.Trees.c64_debug_forest", "Trees.Trees.c64_display_forest", "Trees.Trees.c64_hash_forest", "Trees.c64_rc_hash", "Trees.c64_rc_display", "Trees.c64_rc_eq", "Trees.c64_rc_cmp", "Trees.c64_rc_partial_cmp", "Trees.c64_rc_display_writer", "Trees.c64_rc_debug", "Trees.c64_rc_ne"], "note": "Debug, Display with any writer, and Display/Debug/Hash of forests: c64_debug, c64_display_writer, c64_debug_forest, c64_display_forest, c64_hash_forest. Traits of RcNode: c64_rc_hash, c64_rc_display, c64_rc_eq, c64_rc_cmp, c64_rc_partial_cmp; a too small stack shows as the error fuel, with unlimited stack meaning the unlimited call succeeds (c50_*)."},
 {"property": "C65", "status": "proved", "theorems": ["Trees.c65_program", "Trees.c65_safe", "Trees.c65_as_if_held"], "note": "Any value of the API may be forgotten at any point. Conditions of C54; not dropped or turned into a Tree: a handle whose guard has been forgotten (C59)."},
 {"property": "C66", "status": "proved", "theorems": ["Trees.c66_program", "Trees.c66_safe", "Trees.c66_released", "Trees.c66_inert", "Trees.c66_demo", "Trees.c66_demo2", "Trees.c66_demo_spec", "Trees.c66_demo2_spec", "Trees.c66_demo_deep"], "note": "Programs whose destructors run programs, nested without bound; the fuel n of execR is a bound on the nesting depth and the theorem holds for every n. Destructors inside a dropped owning breadth-first iterator make no calls."},
 {"property": "C67", "status": "proved", "theorems": ["Trees.c67_program", "Trees.c67_all_destroyed", "Trees.c67_distinct"], "note": "C52 with destructors of items that call the crate (C66): items held, destroyed and handed out balance with those brought in by the program and by all destructors, to any nesting depth. Restrictions as in C66."},
 {"property": "C68", "status": "proved", "theorems": ["Trees.c68_eq", "Trees.c68_ne", "Trees.c68_cmp", "Trees.c68_pcmp", "Trees.c68_hash", "Trees.c68_display", "Trees.c68_display_prefix"], "note": "C50 for data types whose own eq/ne/partial_cmp/cmp/hash/fmt may panic, and whose fmt may return an error. With implementations that return, the specifications coincide with those of C50 (eqP_total, cmpP_total, pcmpP_total, hashP_total, fmtP_total). Trait implementations of T do not use the crate."},
 {"property": "C69", "status": "proved", "theorems": ["Trees.c69_program", "Trees.c69_bfs", "Trees.c69_node", "Trees.c69_still", "Trees.c69_safe", "Trees.live_outs"], "note": "Whole programs with live borrows refine the specification; what iterators yield and nodes show is fixed when the borrow is made; the nodes of a borrowed value keep addresses and contents. Concrete program: live_outs."},
 {"property": "C70", "status": "proved", "theorems": ["Trees.c70_order", "Trees.c70_noalias", "Trees.c70_exclusive", "Trees.c70_get", "Trees.c70_set", "Trees.c69_still", "Trees.c69_program", "Trees.c69_safe", "Trees.mut_outs"], "note": "Iterators and references live across calls; the borrow checker is a side condition of the specification (a rejected call does nothing)."},
 {"property": "C71", "status": "proved", "theorems": ["Trees.Trees.c71_program", "Trees.Trees.c71_independent", "Trees.Trees.c71_tour", "Trees.Trees.c71_still", "Trees.Trees.c71_back", "Trees.Trees.c71_safe", "Trees.Trees.walk_outs"], "note": "Whole programs that keep walks refine a specification in which every walk is a cursor over the trees moved into it; concrete program with two interleaved walks: walk_outs."},
 {"property": "C72", "status": "proved", "theorems": ["Trees.c72_program", "Trees.c72_safe", "Trees.c72_place", "Trees.c72_unique", "Trees.c72_direct", "Trees.c72_dangling", "Trees.Trees.c72_item"], "note": "The item read through a reference is what was read through it before, unless the calls in between assign items (c72_item)."},
 {"property": "C73", "status": "proved", "theorems": ["Trees.c73_kept", "Trees.c73_row"], "note": "All programs between the calls of next; c73_kept covers arbitrary changes, c73_row those that leave the children to come in place."}
]}
