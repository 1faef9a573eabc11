{
 "claims": [
  {
   "property": "C01",
   "status": "proved",
   "theorems": [
    "Contrie.C01_linearizable",
    "Contrie.C01_linearizable_content",
    "Contrie.C01_atomic_updates"
   ],
   "note": ""
  },
  {
   "property": "C02",
   "status": "proved",
   "theorems": [
    "Contrie.C02_get_truthful",
    "Contrie.C02_get_finds",
    "Contrie.C02_get_never_invents",
    "Contrie.C02_get_sees_insert"
   ],
   "note": ""
  },
  {
   "property": "C03",
   "status": "proved",
   "theorems": [
    "Contrie.C03_spec",
    "Contrie.C03_hand_back_once",
    "Contrie.C03_conservation"
   ],
   "note": ""
  },
  {
   "property": "C04",
   "status": "proved",
   "theorems": [
    "Contrie.C04_get_or_insert_agree"
   ],
   "note": ""
  },
  {
   "property": "C05",
   "status": "proved",
   "theorems": [
    "Contrie.C05_no_failure",
    "Contrie.C05_no_failing_step",
    "Contrie.C05_never_blocked",
    "Contrie.C05_index_in_bounds"
   ],
   "note": ""
  },
  {
   "property": "C06",
   "status": "proved",
   "theorems": [
    "Contrie.C06_returned_references",
    "Contrie.C06_yielded_references",
    "Contrie.C05_no_failing_step"
   ],
   "note": "access to destroyed memory is the failure badAccess of the machine, excluded by C05_no_failing_step"
  },
  {
   "property": "C07",
   "status": "proved",
   "theorems": [
    "Contrie.C07_retired_iff_unlinked",
    "Contrie.C07_retired_once",
    "Contrie.C07_destroyed_unlinked"
   ],
   "note": ""
  },
  {
   "property": "C08",
   "status": "proved",
   "theorems": [
    "Contrie.C08_get_wait_free",
    "Contrie.C08_get_wait_free_weak"
   ],
   "note": "Also under weak memory."
  },
  {
   "property": "C09",
   "status": "proved",
   "theorems": [
    "Contrie.C09_lock_free",
    "Contrie.C09_finite_work",
    "Contrie.C09_lock_free_weak",
    "Contrie.C09_finite_work_weak"
   ],
   "note": "hypothesis: weak CAS fails spuriously only finitely often; finitely many sessions; *_weak: on weak memory, coherence only"
  },
  {
   "property": "C10",
   "status": "proved",
   "theorems": [
    "Contrie.C10_solo_termination",
    "Contrie.C10_solo_call",
    "Contrie.C10_solo_termination_weak"
   ],
   "note": "Also under weak memory, when the loads of the call return present values from some moment on."
  },
  {
   "property": "C11",
   "status": "proved",
   "theorems": [
    "Contrie.C11_no_key_twice",
    "Contrie.C11_no_key_twice_so_far"
   ],
   "note": ""
  },
  {
   "property": "C12",
   "status": "proved",
   "theorems": [
    "Contrie.C12_stable_key_yielded",
    "Contrie.C12_stable_element_yielded",
    "Contrie.C12_exactly_once"
   ],
   "note": ""
  },
  {
   "property": "C13",
   "status": "proved",
   "theorems": [
    "Contrie.C13_yielded_was_present",
    "Contrie.C13_yielded_was_present_so_far"
   ],
   "note": ""
  },
  {
   "property": "C14",
   "status": "proved",
   "theorems": [
    "Contrie.C14_unmodified_exact",
    "Contrie.C14_iteration_terminates",
    "Contrie.C14_iteration_wait_free_weak"
   ],
   "note": ""
  },
  {
   "property": "C15",
   "status": "proved",
   "theorems": [
    "Contrie.C15_is_empty_true"
   ],
   "note": ""
  },
  {
   "property": "C16",
   "status": "proved",
   "theorems": [
    "Contrie.C16_is_empty_exact",
    "Contrie.C16_exact_if_pruned"
   ],
   "note": "Proved in a more general form: removals must not overlap with each other; insertions and readers may run in parallel with everything."
  },
  {
   "property": "C17",
   "status": "partial",
   "theorems": [
    "Contrie.C17_pruned_partial",
    "Contrie.C17_refuted",
    "Contrie.C17_two_removals_refuted",
    "Contrie.C17_pruned_since_partial",
    "Contrie.C17_null_is_pruned",
    "Contrie.C17_zone_partial",
    "Contrie.C17_zone_init_partial",
    "Contrie.C17_depth_partial",
    "Contrie.C17_zone_sharp"
   ],
   "note": "The full statement is false of the code: C17_refuted is a kernel-checked schedule (three overlapping removals) after which the map is quiescent and empty but a condemned empty inner node remains (is_empty returns false, assert_pruned panics). Proved: it holds in every execution in which removals do not overlap with each other and no update is abandoned (insertions may overlap with everything); C17_two_removals_refuted shows that two overlapping removals already break it. C17_pruned_since_partial does not care about what happened before an instant at which the trie is pruned. C17_zone_partial localises it: the part of the trie for the hashes that begin with g is tidy strictly below g if the removals of keys in that part do not overlap with each other, whatever removals elsewhere do; C17_depth_partial: leftovers of overlapping removals that differ within the first d nibbles lie within the first d levels; C17_zone_sharp: neither can be improved by one level."
  },
  {
   "property": "C18",
   "status": "proved",
   "theorems": [
    "Contrie.C18_pruned",
    "Contrie.C18_assert_pruned_iff",
    "Contrie.C18_pruned_shape",
    "Contrie.C18_stays_pruned"
   ],
   "note": "AssertPruned (Verif/Model/Debug.lean) models assert_pruned line by line; C18_assert_pruned_iff relates it to an independent definition of pruned shapes (Spec/Shape.lean). Proved in a more general form: only removals must not overlap with each other. Also from any pruned state on, whatever happened before."
  },
  {
   "property": "C19",
   "status": "proved",
   "theorems": [
    "Contrie.C19_sequential",
    "Contrie.C19_terminates"
   ],
   "note": ""
  },
  {
   "property": "C20",
   "status": "proved",
   "theorems": [
    "Contrie.C20_hash_irrelevant"
   ],
   "note": ""
  },
  {
   "property": "C21",
   "status": "proved",
   "theorems": [
    "Contrie.C21_keys_independent"
   ],
   "note": ""
  },
  {
   "property": "C22",
   "status": "proved",
   "theorems": [
    "Contrie.C22_closure_at_most_once",
    "Contrie.C22_closure_only_if_absent",
    "Contrie.C22_bound_never_runs",
    "Contrie.C22_new_ran_once"
   ],
   "note": ""
  },
  {
   "property": "C23",
   "status": "partial",
   "theorems": [
    "Contrie.C23_findable_partial",
    "Contrie.C23_refuted"
   ],
   "note": "Proved for closures that build an element for the key asked for; the claim for other closures is false (C23_refuted is a kernel-checked run)."
  },
  {
   "property": "C24",
   "status": "proved",
   "theorems": [
    "Contrie.C24_abort_harmless",
    "Contrie.C24_abort_possible"
   ],
   "note": ""
  },
  {
   "property": "C25",
   "status": "proved",
   "theorems": [
    "Contrie.C25_conmap",
    "Contrie.C25_cloneconmap",
    "Contrie.C25_conmap_concurrent",
    "Contrie.C25_cloneconmap_concurrent",
    "Contrie.C25_independent",
    "Contrie.C25_conmap_interleaved",
    "Contrie.C25_cloneconmap_interleaved",
    "Contrie.C25_conmap_interleaved_concurrent",
    "Contrie.C25_cloneconmap_interleaved_concurrent"
   ],
   "note": "clone program over the map machine; also with concurrent modifications of the source: the clone then consists of elements each present at some instant of the pass; *_interleaved: the insertions into the clone overlap with the pass over the source, as in the loop of extend"
  },
  {
   "property": "C26",
   "status": "proved",
   "theorems": [
    "Contrie.C26_conmap_elements",
    "Contrie.C26_conmap",
    "Contrie.C26_cloneconmap",
    "Contrie.C26_conset",
    "Contrie.C26_from_iter_conmap",
    "Contrie.C26_from_elements_conmap",
    "Contrie.C26_from_iter_cloneconmap",
    "Contrie.C26_from_iter_conset"
   ],
   "note": ""
  },
  {
   "property": "C27",
   "status": "proved",
   "theorems": [
    "Contrie.C27_conmap",
    "Contrie.C27_cloneconmap",
    "Contrie.C27_conset"
   ],
   "note": "rayon modelled as any distribution of the items over sessions, in any order"
  },
  {
   "property": "C28",
   "status": "proved",
   "theorems": [
    "Contrie.C28_set",
    "Contrie.C28_one_of_equals"
   ],
   "note": ""
  },
  {
   "property": "C29",
   "status": "proved",
   "theorems": [
    "Contrie.C29_conmap",
    "Contrie.C29_cloneconmap",
    "Contrie.C29_agree"
   ],
   "note": ""
  },
  {
   "property": "C30",
   "status": "proved",
   "theorems": [
    "Contrie.C30_existing_or_new",
    "Contrie.C30_constructors",
    "Contrie.C30_map"
   ],
   "note": ""
  },
  {
   "property": "C31",
   "status": "partial",
   "theorems": [
    "Contrie.C31_nodes_released_once_partial",
    "Contrie.C31_refuted",
    "Contrie.C31_repaired"
   ],
   "note": "Every node is released exactly once; the claims on the type used for releasing and on destructors of elements are false of the code (C31_refuted: for every non-empty map), because drop_data does not cast. C31_repaired: with the cast added the whole property holds."
  },
  {
   "property": "C32",
   "status": "proved",
   "theorems": [
    "Contrie.C32_address_and_flags",
    "Contrie.C32_words"
   ],
   "note": "Pointer words are 64-bit, flags are the low bits, nodes aligned."
  },
  {
   "property": "C33",
   "status": "proved",
   "theorems": [
    "Contrie.C33_canonical_shape",
    "Contrie.C33_history_independent",
    "Contrie.C33_pruned_is_canonical",
    "Contrie.C33_pruned_same"
   ],
   "note": "Canonical/Same are in Verif/Spec/Shape.lean, independent of the machine. Proved in a more general form: only removals must not overlap with each other. C33_pruned_is_canonical: whatever assert_pruned accepts has the canonical shape, in any reachable state."
  },
  {
   "property": "C34",
   "status": "proved",
   "theorems": [
    "Contrie.C34_no_aba",
    "Contrie.C34_refines",
    "Contrie.C34_linearizable",
    "Contrie.C34_no_failure",
    "Contrie.C34_returned_references",
    "Contrie.C34_linked_not_offered",
    "Contrie.C34_never_blocked",
    "Contrie.C34_lock_free",
    "Contrie.C34_general"
   ],
   "note": "C34_refines: the machine with reuse (Model/Reuse) simulates the one without (Model/Machine), step by step, with the same events and content; every claim about executions carries over."
  },
  {
   "property": "C35",
   "status": "proved",
   "theorems": [
    "Contrie.C35_publication",
    "Contrie.C35_access",
    "Contrie.C35_messages",
    "Contrie.C35_needs_consume",
    "Contrie.C35_needs_release",
    "Contrie.C35_letter_of_consume",
    "Contrie.C35_with_unwinding"
   ],
   "note": "View-based weak memory machine running the same tick functions (Model/Weak.lean). Loads may return any value ever written; reclamation is not part of this machine. Consume is modelled as dependency ordering as provided by crossbeam's load_consume; C35_letter_of_consume exhibits a run showing that the letter of C11's consume would not be enough for the node split."
  },
  {
   "property": "C36",
   "status": "proved",
   "theorems": [
    "Contrie.C36_conmap",
    "Contrie.C36_cloneconmap",
    "Contrie.C36_conset",
    "Contrie.C36_conmap_clone",
    "Contrie.C36_cloneconmap_clone"
   ],
   "note": "From any reachable situation - other sessions may be stuck in the middle of their calls - the calls of an idle session return, with the results of the plain map or set; answers of is_empty need that no removal is in progress."
  },
  {
   "property": "C37",
   "status": "proved",
   "theorems": [
    "Contrie.C37_conmap",
    "Contrie.C37_cloneconmap",
    "Contrie.C37_conset"
   ],
   "note": ""
  },
  {
   "property": "C38",
   "status": "proved",
   "theorems": [
    "Contrie.C38_no_failure",
    "Contrie.C38_only_panic",
    "Contrie.C38_never_blocked",
    "Contrie.C38_returned_references",
    "Contrie.C38_yielded_references",
    "Contrie.C38_retired_iff_unlinked",
    "Contrie.C38_retired_once",
    "Contrie.C38_destroyed_unlinked",
    "Contrie.C38_tree",
    "Contrie.C38_drop",
    "Contrie.C38_no_aba",
    "Contrie.C38_get_bounded",
    "Contrie.C38_honest_is_special_case",
    "Contrie.C38_answers_arbitrary"
   ],
   "note": "Machine in which every comparison and hashing is answered arbitrarily at every step and any call may be abandoned by a panic; the well-behaved machine is proved to be a special case. Re-entrant use is the use by another session."
  },
  {
   "property": "C39",
   "status": "proved",
   "theorems": [
    "Contrie.C39_causal",
    "Contrie.C39_synchronised_get",
    "Contrie.exStale_not_linearizable"
   ],
   "note": "Weak memory machine with views (Model/Coherent.lean). Causal linearization for every prefix of every execution; is_empty and iteration as glimpses; synchronised get exact; kernel-checked counterexample shows linearizability itself fails without synchronisation."
  },
  {
   "property": "C40",
   "status": "proved",
   "theorems": [
    "Contrie.C40_no_failure",
    "Contrie.C40_access",
    "Contrie.C40_returned_references",
    "Contrie.C40_yielded_references"
   ],
   "note": "Weak memory machine with reclamation under the happens-before contract of crossbeam-epoch."
  },
  {
   "property": "C41",
   "status": "proved",
   "theorems": [
    "Contrie.C41_synchronised_linearizable",
    "Contrie.C41_own_calls"
   ],
   "note": "Causal linearization (C39) + Herlihy-Wing locality (Proof/Local.lean), weak memory machine with reclamation."
  },
  {
   "property": "C42",
   "status": "proved",
   "theorems": [
    "Contrie.C42_found_stays",
    "Contrie.C42_found_stays_hostile",
    "Contrie.C42_found_stays_weak"
   ],
   "note": "The three machines; also the justification for reading a data node in the same step as the pointer to it."
  },
  {
   "property": "C43",
   "status": "proved",
   "theorems": [
    "Contrie.C43_no_failure",
    "Contrie.C43_access",
    "Contrie.C43_only_panic",
    "Contrie.C43_never_blocked",
    "Contrie.C43_returned_references",
    "Contrie.C43_yielded_references",
    "Contrie.C43_found_stays",
    "Contrie.C43_retired_iff_unlinked",
    "Contrie.C43_retired_once",
    "Contrie.C43_destroyed_unlinked",
    "Contrie.C43_drop",
    "Contrie.C43_no_aba",
    "Contrie.C43_get_bounded",
    "Contrie.C43_honest_is_special_case"
   ],
   "note": "Weak memory and arbitrary user code in one machine (Model/Wild). Subsumes C40 (C43_honest_is_special_case: same states and events)."
  },
  {
   "property": "C44",
   "status": "proved",
   "theorems": [
    "Contrie.C44_lock_free",
    "Contrie.C44_finite_work",
    "Contrie.C44_solo",
    "Contrie.C44_how_calls_end",
    "Contrie.C44_lock_free_weak",
    "Contrie.C44_finite_work_weak",
    "Contrie.C44_solo_weak",
    "Contrie.C44_how_calls_end_weak",
    "Contrie.C44_honest_is_special_case",
    "Contrie.C44_iteration_wait_free"
   ],
   "note": "hypothesis: weak CAS fails spuriously only finitely often; finitely many sessions; *_weak: coherence only, no visibility assumption"
  },
  {
   "property": "C45",
   "status": "proved",
   "theorems": [
    "Contrie.C45_conservation",
    "Contrie.C45_accounted",
    "Contrie.C45_no_more_than_gained",
    "Contrie.C45_destructed_once",
    "Contrie.C45_in_node",
    "Contrie.C45_in_call",
    "Contrie.C45_in_map",
    "Contrie.C45_returned_intact",
    "Contrie.C45_yielded_intact"
   ],
   "note": "Books of all that happens to elements, on the machine with weak memory and arbitrary user code (Clone may return anything). Identity theorems assume that what is handed over and what Clone makes is always something new (Nodup)."
  },
  {
   "property": "C46",
   "status": "partial",
   "theorems": [
    "Contrie.C46_leaks_unpublished_partial",
    "Contrie.C46_refuted",
    "Contrie.C46_drop_as_coded",
    "Contrie.C46_no_leaks_repaired",
    "Contrie.C46_drop_accounted",
    "Contrie.C46_repaired"
   ],
   "note": "False of the code: drop_data drops a Box<Inner>, so a data node whose CAS fails forgets its elements (C46_refuted), and dropping the map destructs no element (C46_drop_as_coded). As coded: what operations forget has never been in the map. With the cast added, everything is destructed exactly once (C46_repaired)."
  },
  {
   "property": "C47",
   "status": "proved",
   "theorems": [
    "Contrie.C47_informed_key",
    "Contrie.C47_informed_iteration",
    "Contrie.C47_informed_is_empty",
    "Contrie.C39_synchronised_get",
    "Contrie.C47_fork_join",
    "Contrie.C47_no_key_twice",
    "Contrie.C47_yielded_was_present",
    "Contrie.C47_content_given",
    "Contrie.C47_found_given",
    "Contrie.C47_yielded_given"
   ],
   "note": "On the coherent weak-memory machine; lookups: C39_synchronised_get."
  },
  {
   "property": "C48",
   "status": "proved",
   "theorems": [
    "Contrie.C48_footprint",
    "Contrie.C48_all_memory",
    "Contrie.C48_empty",
    "Contrie.C48_overlapping_removals",
    "Contrie.C48_footprint_if_pruned",
    "Contrie.C48_leaves",
    "Contrie.C48_depth"
   ],
   "note": "hypothesis: removals do not overlap with each other (as C18, C33); C48_overlapping_removals: necessary (consequence of the C17 finding); C48_depth bounds what overlapping removals can leave behind"
  },
  {
   "property": "C49",
   "status": "proved",
   "theorems": [
    "Contrie.C49_refines",
    "Contrie.C49_linearizable",
    "Contrie.C49_atomic_updates",
    "Contrie.C49_new",
    "Contrie.C49_closure_once",
    "Contrie.C49_closure_only_if_absent",
    "Contrie.C49_no_failure",
    "Contrie.C49_returned_references",
    "Contrie.C49_never_blocked",
    "Contrie.C49_lock_free",
    "Contrie.C49_solo",
    "Contrie.C49_get_wait_free"
   ],
   "note": "Machine of Model/Late.lean: the closure's run is split from the load before it; nested calls are other sessions. On sequentially consistent memory with well-behaved keys."
  },
  {
   "property": "C50",
   "status": "proved",
   "theorems": [
    "Contrie.C50_refines",
    "Contrie.C50_linearizable",
    "Contrie.C50_no_failure",
    "Contrie.C50_returned_references",
    "Contrie.C50_every_node_accounted",
    "Contrie.C50_nodes_exist",
    "Contrie.C50_no_leftovers",
    "Contrie.C50_never_blocked",
    "Contrie.C50_lock_free",
    "Contrie.C50_get_wait_free",
    "Contrie.C50_solo",
    "Contrie.C50_solo_termination"
   ],
   "note": "Machine at the granularity of the code (Model/Fine.lean), with reuse of memory. What comes after an access is one step."
  },
  {
   "property": "C51",
   "status": "proved",
   "theorems": [
    "Contrie.C51_exact_cells",
    "Contrie.C51_path_only",
    "Contrie.C51_place_fixed",
    "Contrie.C51_disjoint",
    "Contrie.C51_disjoint_cells",
    "Contrie.C51_writes_on_path"
   ],
   "note": "Positions are defined by following cells from the root (HangsAt), independent of the ghost path."
  },
  {
   "property": "C52",
   "status": "proved",
   "theorems": [
    "Contrie.C52_no_needless_nodes",
    "Contrie.C52_lookup_cost",
    "Contrie.C52_lookup_short",
    "Contrie.C52_size"
   ],
   "note": "Offered: an insert or get_or_insert_with with this key was invoked before (accesses of the run are counted from the labels)."
  },
  {
   "property": "C53",
   "status": "proved",
   "theorems": [
    "Contrie.C53_retry_has_reason",
    "Contrie.C53_disjoint_undisturbed",
    "Contrie.C53_help_has_reason",
    "Contrie.C53_restart_has_reason",
    "Contrie.C53_no_removal_no_restart"
   ],
   "note": ""
  },
  {
   "property": "C54",
   "status": "proved",
   "theorems": [
    "Contrie.C54_solo_bound",
    "Contrie.C54_solo_bound_midway",
    "Contrie.C54_solo_constant",
    "Contrie.C54_without_removals"
   ],
   "note": ""
  },
  {
   "property": "C55",
   "status": "proved",
   "theorems": [
    "Contrie.C55_first_condemnation",
    "Contrie.C55_condemned_was_sparse",
    "Contrie.C55_branching_node_stays"
   ],
   "note": ""
  },
  {
   "property": "C56",
   "status": "proved",
   "theorems": [
    "Contrie.C56_refines",
    "Contrie.C56_causal",
    "Contrie.C56_synchronised_linearizable",
    "Contrie.C56_no_failure",
    "Contrie.C56_access",
    "Contrie.C56_returned_references",
    "Contrie.C56_general"
   ],
   "note": "Weak memory with an allocator that reuses addresses refines weak memory without."
  },
  {
   "property": "C57",
   "status": "proved",
   "theorems": [
    "Contrie.C57_count",
    "Contrie.C57_handle_keeps_alive",
    "Contrie.C57_map_keeps_alive",
    "Contrie.C57_fetch_safe",
    "Contrie.C57_read_safe",
    "Contrie.C57_clone_safe",
    "Contrie.C57_destroyed_once",
    "Contrie.C57_last_handle",
    "Contrie.C57_maps_dropped"
   ],
   "note": "Reference counting on top of the ownership record; last two theorems with drop_data repaired (cf. C46)."
  },
  {
   "property": "C58",
   "status": "proved",
   "theorems": [
    "Contrie.C58_safe",
    "Contrie.C58_finishes",
    "Contrie.C58_wellformed",
    "Contrie.C58_shows",
    "Contrie.C58_synchronised",
    "Contrie.C58_exact",
    "Contrie.C58_finishes_honest"
   ],
   "note": "C58_safe, C58_finishes, C58_wellformed: with weak memory and misbehaving user code. The printer has a view of its own, which starts as that of its session."
  },
  {
   "property": "C59",
   "status": "proved",
   "theorems": [
    "Contrie.C59_insert_heals",
    "Contrie.C59_insert_alone_heals",
    "Contrie.C59_remove_heals",
    "Contrie.C59_never_more",
    "Contrie.C59_second_is_cheap",
    "Contrie.C59_missing_key_need_not_heal"
   ],
   "note": "Complements C17 (false in full): the condemned leftovers of C17_refuted are cleared by the next insertion on the path. Sparse but uncondemned ancestors (the other kind of leftover) are not covered. Removals that do not find their key need not heal, kernel-checked example."
  },
  {
   "property": "C60",
   "status": "proved",
   "theorems": [
    "Contrie.C60_conmap",
    "Contrie.C60_cloneconmap",
    "Contrie.C60_conset",
    "Contrie.C60_at_rest",
    "Contrie.C60_modifies_nothing",
    "Contrie.C60_cloneconmap_modifies_nothing",
    "Contrie.C60_conset_modifies_nothing",
    "Contrie.C60_empty",
    "Contrie.C60_conmap_writer",
    "Contrie.C60_cloneconmap_writer",
    "Contrie.C60_conset_writer",
    "Contrie.C60_agree",
    "Contrie.C60_terminates",
    "Contrie.C60_cloneconmap_terminates",
    "Contrie.C60_conset_terminates"
   ],
   "note": "The builders DebugMap/DebugSet of the standard library are modelled without the # flag; the text of an element is a function of the element."
  },
  {
   "property": "C61",
   "status": "proved",
   "theorems": [
    "Contrie.C61_sequentially_consistent",
    "Contrie.C61_plain_map",
    "Contrie.C61_still",
    "Contrie.C61_world",
    "Contrie.C61_conmap",
    "Contrie.C61_cloneconmap",
    "Contrie.C61_conset",
    "Contrie.C61_conmap_clone",
    "Contrie.C61_cloneconmap_clone"
   ],
   "note": "Race-free executions of the weak-memory machine are executions of the sequentially consistent machine; wrappers through C61_world."
  },
  {
   "property": "C62",
   "status": "proved",
   "theorems": [
    "Contrie.C62_updates_linearizable",
    "Contrie.C62_hand_back_once",
    "Contrie.C62_conservation",
    "Contrie.C62_get_or_insert_agree"
   ],
   "note": "For all executions of the weak memory machine, no synchronisation assumed. Derived from the causal linearization of C39. Examples with stale reads: exWeakGoi, exWeakRem."
  },
  {
   "property": "C63",
   "status": "proved",
   "theorems": [
    "Contrie.C63_unsynchronised_refuted",
    "Contrie.C63_locked",
    "Contrie.C63_ordered",
    "Contrie.C63_is_empty_ordered"
   ],
   "note": "C63_locked: programs whose updates are ordered with all calls (C61). C63_unsynchronised_refuted: a kernel-checked execution in which no two calls overlap, showing that the proviso about synchronisation cannot be dropped. refuted without synchronisation (even if removals do not overlap); proved if removals are ordered by synchronisation with each other and with get_or_inserts of the same key (other calls need no synchronisation), is_empty exact if all updates precede it; and, as a corollary of C61, for race-free programs"
  },
  {
   "property": "C64",
   "status": "partial",
   "theorems": [
    "Contrie.C64_con_map",
    "Contrie.C64_clone_con_map",
    "Contrie.C64_con_set",
    "Contrie.C64_iterators",
    "Contrie.C64_existing_or_new",
    "Contrie.C64_collections",
    "Contrie.C64_destructed_at_home_partial",
    "Contrie.C64_returned",
    "Contrie.C64_refuted"
   ],
   "note": "The claims about types and about returned references are proved in full. 'Destructed in the thread it came from, unless Send' is proved for all that calls destruct (C64_destructed_at_home_partial); for what the collector destructs it is false of the code: C64_refuted (single-threaded use, elements neither Send nor Sync, destructor runs in another thread)."
  },
  {
   "property": "C65",
   "status": "partial",
   "theorems": [
    "Contrie.C65_one_at_a_time_partial",
    "Contrie.C65_no_failure_partial",
    "Contrie.C65_default_collector",
    "Contrie.C65_refuted"
   ],
   "note": "Proved if all guards in force at a time belong to one collector. In full it is false of the code: C65_refuted is a run with two collectors in which a lookup touches a destroyed node."
  },
  {
   "property": "C66",
   "status": "proved",
   "theorems": [
    "Contrie.C66_conmap",
    "Contrie.C66_cloneconmap",
    "Contrie.C66_conset",
    "Contrie.C66_conmap_told",
    "Contrie.C66_cloneconmap_told",
    "Contrie.C66_conset_told",
    "Contrie.C66_extend_conmap",
    "Contrie.C66_extend_cloneconmap",
    "Contrie.C66_extend_conset",
    "Contrie.C66_par_extend_conmap",
    "Contrie.C66_par_extend_cloneconmap",
    "Contrie.C66_par_extend_conset",
    "Contrie.C66_clone_conmap",
    "Contrie.C66_clone_cloneconmap"
   ],
   "note": "The wrappers' calls as programs over several maps on weak memory (CWorld), no synchronisation assumed. Kernel-checked examples: a lookup that misses an insertion completed before it was called (Glimpsed), the same lookup after synchronising, parallel extend of one key, a clone made after a join."
  },
  {
   "property": "C67",
   "status": "proved",
   "theorems": [
    "Contrie.C67_refines",
    "Contrie.C67_causal",
    "Contrie.C67_synchronised_linearizable",
    "Contrie.C67_no_failure",
    "Contrie.C67_access",
    "Contrie.C67_returned_references",
    "Contrie.C67_unlinked",
    "Contrie.C67_never_blocked"
   ],
   "note": "Machine of Model/FineWeak.lean: each step of the weak-memory machine is split into the access and the rest. Simplification: the node a compare-and-set publishes is created together with the access (its separate creation, and reuse of memory, are in C50/C56)."
  },
  {
   "property": "C68",
   "status": "proved",
   "theorems": [
    "Contrie.C68_enough",
    "Contrie.C68_code",
    "Contrie.C68_safe",
    "Contrie.C68_exact"
   ],
   "note": "C68_safe: programs accepted with the code's signatures are safe (C68_enough: any signatures with the bounds of Enough; C68_code: the code's have them). C68_exact: signatures make all accepted programs safe iff they have these bounds. Assumed: the compiler enforces lifetimes."
  },
  {
   "property": "C69",
   "status": "proved",
   "theorems": [
    "Contrie.C69_linearizable",
    "Contrie.C69_iteration",
    "Contrie.C69_forms",
    "Contrie.C69_list_is_map",
    "Contrie.C69_causal",
    "Contrie.C69_synchronised"
   ],
   "note": "The specification (Spec/UserKeys.lean) mentions no classes or hashes. C69_causal and C69_synchronised are the weak memory versions. Beside them: a kernel-checked run of user code whose borrowed form hashes differently. Cloning an element gives an equal element."
  },
  {
   "property": "C70",
   "status": "proved",
   "theorems": [
    "Contrie.C70_linearizable",
    "Contrie.C70_iteration",
    "Contrie.C70_faithful",
    "Contrie.C70_causal",
    "Contrie.C70_synchronised"
   ],
   "note": "The clones of each step are an arbitrary function chosen anew in each step; Spec/Cloning.lean says what 'clone of a clone of' means. Beside it: kernel-checked runs in which clones are returned, and one with a Clone that changes the key."
  },
  {
   "property": "C71",
   "status": "proved",
   "theorems": [
    "Contrie.C71_iterations_fit",
    "Contrie.C71_iterations_fit_user",
    "Contrie.C71_iterations_fit_clones",
    "Contrie.C71_inserted_is_yielded",
    "Contrie.C71_causal",
    "Contrie.C71_causal_user",
    "Contrie.C71_causal_clones",
    "Contrie.C71_synchronised",
    "Contrie.C71_causal_inserted_is_yielded",
    "Contrie.C71_synchronised_user",
    "Contrie.C71_synchronised_clones",
    "Contrie.C71_fine_causal",
    "Contrie.C71_fine_synchronised"
   ],
   "note": "Spec/Looks.lean is the specification (positions in a linearization); beside it a kernel-checked run whose iteration is not a snapshot."
  }
 ]
}