{
 "claims": [
  {
   "property": "C01",
   "status": "proved",
   "theorems": [
    "Docc.Sym.cnf_sound",
    "Docc.Sym.cnf_literals",
    "Docc.Sym.cnf_total",
    "Docc.Sym.neg_eval"
   ],
   "note": "cnf_total: the exception is only thrown for non-regular input"
  },
  {
   "property": "C02",
   "status": "partial",
   "theorems": [
    "Docc.Sym.extreme_values_sound_partial",
    "Docc.Sym.extreme_values_new_sound_partial",
    "Docc.Sym.extreme_values_closed_partial",
    "Docc.Sym.extreme_values_new_closed_partial",
    "Docc.Sym.minimum_idiv_unsound",
    "Docc.Sym.minimum_new_idiv_unsound",
    "Docc.Sym.minimum_zext_unsound",
    "Docc.Sym.minimum_sizeof_undefined"
   ],
   "note": "proved for expressions whose only functions are in-range zero extensions, and for all expressions when the returned bound contains no function; false (refuted by concrete witnesses) for idiv/imod/negative zext because every function symbol takes the zext branch"
  },
  {
   "property": "C03",
   "status": "partial",
   "theorems": [
    "Docc.Sym.is_contiguous_partial",
    "Docc.Sym.is_monotonic_partial",
    "Docc.Sym.is_monotonic_pow_partial",
    "Docc.Sym.is_contiguous_violated",
    "Docc.Sym.is_monotonic_negative_violated",
    "Docc.Sym.is_monotonic_pow_violated",
    "Docc.Sym.is_monotonic_pow_stuck"
   ],
   "note": "false for non-affine updates and negative starts (refuted); proved for affine updates with integer coefficients"
  },
  {
   "property": "C04",
   "status": "partial",
   "theorems": [
    "Docc.Sym.intersects_sound_partial",
    "Docc.Sym.mkQuery_sound",
    "Docc.Sym.isDisjointMonotonic_sound",
    "Docc.Sym.intersects_pow_violated",
    "Docc.Sym.intersects_stride_violated",
    "Docc.Sym.intersects_tile_violated",
    "Docc.Sym.intersects_start_violated",
    "Docc.Sym.intersects_iabs_violated"
   ],
   "note": "Proved: if intersects answers false, no two iterations with different loop variable collide, for every pair of subscripts, assumptions and states, given sound SymEngine/ISL answers, faithful delinearization, bounds that contain only constants, equal lower bounds of both accesses, no functions and only powers of the loop variable. Each of these five conditions is necessary: five counterexamples are proved (A[N^2]; A[10i+j]/A[20i+j]; A[j]/A[j+8] with 8i<=j<=8i+7; accesses with different start; A[iabs(i)])."
  },
  {
   "property": "C05",
   "status": "partial",
   "theorems": [
    "Docc.Sym.delinearize_separates_partial",
    "Docc.Sym.delinPeel_spec",
    "Docc.Sym.radix_unique",
    "Docc.Sym.delinearize_bound_violated",
    "Docc.Sym.delinearize_pointwise_violated",
    "Docc.Sym.delinearize_stride_violated"
   ],
   "note": "Proved: a subscript that is split equals sum stride*dimension in mixed radix, and equal addresses imply equal dimensions for the same subscript, if the largest stride is the actual stride and the rest never equals the stride. The tests in the code do not establish these two conditions and drop the strides across subscripts: three counterexamples are proved."
  },
  {
   "property": "C06",
   "status": "proved",
   "theorems": [
    "Docc.Sym.polynomial_div_identity"
   ],
   "note": "over the contract of SymEngine polynomial construction and expansion (PolyEngine.Sound)"
  },
  {
   "property": "C07",
   "status": "partial",
   "theorems": [
    "Docc.Sym.simplify_value_partial",
    "Docc.Sym.simplifyCmp_partial",
    "Docc.Sym.simplify_zext_violated",
    "Docc.Sym.simplify_imod_zero_ub"
   ],
   "note": "proved for expressions whose zero extensions are applied to values below 2^32 (refuted otherwise); SymEngine canonicalisation and SymEngine::simplify are a value-preserving contract; imod(a,0) is host undefined behaviour (proved)"
  },
  {
   "property": "C08",
   "status": "proved",
   "theorems": [
    "Docc.Sym.divide_ceil_least",
    "Docc.Sym.divide_ceil_negative_violated"
   ],
   "note": "outside the claimed range (negative dividend) the symbolic path differs; the second theorem shows it"
  },
  {
   "property": "C09",
   "status": "proved",
   "theorems": [
    "Docc.Sym.eval_subs_sym",
    "Docc.Sym.eval_subs_of_eq",
    "Docc.Sym.eval_of_not_uses",
    "Docc.Sym.uses_iff_mem_atoms",
    "Docc.Sym.not_uses_subs"
   ],
   "note": ""
  },
  {
   "property": "C10",
   "status": "partial",
   "theorems": [
    "Docc.Sym.affine_coefficients_partial",
    "Docc.Sym.affine_coefficients_none_iff",
    "Docc.Sym.affine_coefficients_order_violated",
    "Docc.Sym.inverse_correct",
    "Docc.Sym.affine_inverse_multi_violated"
   ],
   "note": "false when the symbols are not passed in the polynomial's sorted order and for inverses with other symbols (both refuted); proved otherwise"
  },
  {
   "property": "C100",
   "status": "partial",
   "theorems": [
    "Docc.IR.cfg_dominates_partial",
    "Docc.IR.cfa_dominates_partial",
    "Docc.IR.return_is_exit_partial",
    "Docc.IR.entry_found",
    "Docc.IR.visits_iff",
    "Docc.IR.empty_case_violated",
    "Docc.IR.empty_seq_violated",
    "Docc.IR.loop_exit_violated",
    "Docc.IR.null_exit_violated",
    "Docc.IR.no_entry_violated",
    "Docc.IR.shared_join_violated"
   ],
   "note": "proved: dominance in the graph, and dominates() when at most one vertex behind an if-else exists, imply the order of visits in every execution, for programs without empty nested sequences and without empty cases of complete if-elses; executions that return end at an exit; the entry of programs that do not begin with a loop. Refuted: empty cases, empty sequences, programs ending in a loop (no exit) or an if-else (null pointer as exit), programs beginning with a loop (no entry), several if-elses (dominates() wrong or not ending, because all join vertices share the null pointer). Post-dominance is not modelled"
  },
  {
   "property": "C101",
   "status": "partial",
   "theorems": [
    "Docc.IR.ptr_evolution_partial",
    "Docc.IR.ptr_evolution_program_partial",
    "Docc.IR.stride_violated",
    "Docc.IR.branch_violated",
    "Docc.IR.continue_violated",
    "Docc.IR.after_violated",
    "Docc.IR.init_violated"
   ],
   "note": "proved: same outcomes and same contents of everything but the iterator, for loops with step 1 that advance the pointer at the top level of the body behind all uses, with no continue before, when the body changes neither the loop variable nor the initial value, and in programs that do not read the iterator behind the loop. Refuted, each with an accepted loop: other strides, a pointer advanced in a branch, a continue before the uses, uses behind the loop, a body that changes a symbol of the initial value. The memory behind the pointer is modelled as reached through it only"
  },
  {
   "property": "C102",
   "status": "proved",
   "theorems": [
    "Docc.IR.Scope.parent_scope_exact",
    "Docc.IR.Scope.parent_scope_null",
    "Docc.IR.Scope.ancestor_scopes_exact",
    "Docc.IR.Scope.ancestor_scopes_unknown",
    "Docc.IR.Scope.scope_throws_iff"
   ],
   "note": "hypotheses: the nodes of a function are different objects, and classes without children (blocks, break, continue, return) have none"
  },
  {
   "property": "C103",
   "status": "partial",
   "theorems": [
    "Docc.IR.Scope.copy_same_program",
    "Docc.IR.Scope.insert_same_program",
    "Docc.IR.Scope.copy_fresh",
    "Docc.IR.Scope.copy_mapping_partial",
    "Docc.IR.Scope.insert_mapping_partial",
    "Docc.IR.Scope.copy_succeeds",
    "Docc.IR.Scope.insert_succeeds_iff",
    "Docc.IR.Scope.copy_mapping_incomplete"
   ],
   "note": "proved: same program, target kept, new addresses, no exception, and the mapping is exact for all nodes but the bodies of loops. False: the mapping has no entry for the body (root()) of a loop (copy_mapping_incomplete). Missing: debug information (copy() drops that of an if-else), schedules, targets inside of the source"
  },
  {
   "property": "C104",
   "status": "partial",
   "theorems": [
    "Docc.Types.outer_declared",
    "Docc.Types.outer_accesses",
    "Docc.Types.outer_sound_partial",
    "Docc.Types.outer_null_iff_partial",
    "Docc.Types.outer_member_violated",
    "Docc.Types.outer_shared_violated"
   ],
   "note": "proved: declared types; every computation uses the container at the reported type; and the full statement if references into the container are to elements of pointers (one subscript) and no dereference concerns structures. False: c = &p[0].member reports a pointer to the structure instead of to the member (outer_member_violated); storing a pointer-like structure behind a pointer makes the answer null although all typed uses agree (outer_shared_violated). Missing: a second run on the same object"
  },
  {
   "property": "C105",
   "status": "partial",
   "theorems": [
    "Docc.Types.byte_reference_partial",
    "Docc.Types.trivial_reference_address",
    "Docc.Types.trivial_reference_only",
    "Docc.Types.byte_offset_violated",
    "Docc.Types.byte_load_violated",
    "Docc.Types.byte_size_violated"
   ],
   "note": "TrivialReferenceConversion proved in full. ByteReferenceElimination proved where the pointer holds the address of its move and offset and element size fit into int. False: offsets are cut to 32 bits (byte_offset_violated), a pointer that is loaded (p = *A with a byte type) is taken for a reference (byte_load_violated), element types of 4 GiB divide by zero (byte_size_violated). Missing: that the pointer still holds the address at the use (dominance, moves in between: see C71, C72), merging of access nodes afterwards"
  },
  {
   "property": "C11",
   "status": "proved",
   "theorems": [
    "Docc.IR.canonical_bound_correct"
   ],
   "note": "in states where the compared expressions are defined (no division by zero)"
  },
  {
   "property": "C12",
   "status": "proved",
   "theorems": [
    "Docc.Sym.create_scalar_sound",
    "Docc.Sym.create_pointer_sound",
    "Docc.Sym.create_scalar_supported",
    "Docc.Sym.create_scalar_exact",
    "Docc.Sym.bounds_accessors_sound"
   ],
   "note": ""
  },
  {
   "property": "C13",
   "status": "partial",
   "theorems": [
    "Docc.IR.sequenceFusion_preserves_partial",
    "Docc.IR.sequenceFusion_violated",
    "Docc.IR.sequenceFusion_flat"
   ],
   "note": "false when a nested sequence has assignments on its own transition (they are dropped, refuted); proved otherwise"
  },
  {
   "property": "C14",
   "status": "partial",
   "theorems": [
    "Docc.IR.dce_preserves_partial",
    "Docc.IR.dce_exact_partial",
    "Docc.IR.trivialMap_partial",
    "Docc.IR.trivialMap_violated",
    "Docc.IR.trivialMap_write_violated",
    "Docc.IR.dce_permissive_violated",
    "Docc.IR.dce_empty_while"
   ],
   "note": "proved without trivial Maps; trivial Maps proved under side conditions the pass does not check, refuted without them; permissive mode refuted"
  },
  {
   "property": "C15",
   "status": "partial",
   "theorems": [
    "Docc.IR.condElim_preserves_partial",
    "Docc.IR.condElim_changed_local",
    "Docc.IR.condElim_violated"
   ],
   "note": "false when the branch assigns symbols behind the loop (refuted); otherwise proved for whole programs up to the dead loop variables"
  },
  {
   "property": "C16",
   "status": "partial",
   "theorems": [
    "Docc.IR.commonAssign_preserves_partial",
    "Docc.IR.commonAssign_self_violated",
    "Docc.IR.commonAssign_incomplete_violated"
   ],
   "note": "false for self-referencing assignments and non-exhaustive if-else (refuted); proved under exhaustiveness and independence"
  },
  {
   "property": "C17",
   "status": "partial",
   "theorems": [
    "Docc.IR.loop_normalization_partial",
    "Docc.IR.loop_normalization_condition_partial",
    "Docc.IR.normalization_ne_violated",
    "Docc.IR.normalization_break_violated",
    "Docc.IR.normalization_bound_violated",
    "Docc.IR.normalization_stride_violated",
    "Docc.IR.normalization_init_violated",
    "Docc.IR.normalization_final_violated",
    "Docc.IR.normalization_ub"
   ],
   "note": "proved (all final states off the loop variable, exactly when the loop is not moved) for constant strides, inequalities that are their own clause and approached from the near side, and bodies that keep the bounds; refuted for each of these conditions, which the pass does not check, and for the final value of the loop variable"
  },
  {
   "property": "C18",
   "status": "partial",
   "theorems": [
    "Docc.IR.while_to_for_partial",
    "Docc.IR.while_to_for_violated"
   ],
   "note": "refuted when the loop is entered with its continue condition false (the while runs once, the for not at all); proved otherwise for an update in a transition of the loop body itself with independent entries. Not modelled: an update in a nested sequence"
  },
  {
   "property": "C19",
   "status": "partial",
   "theorems": [
    "Docc.IR.tiling_preserves_partial",
    "Docc.IR.canTile_step",
    "Docc.IR.downClosed_of_lt",
    "Docc.IR.tiling_ne_violated",
    "Docc.IR.tiling_break_violated",
    "Docc.IR.tiling_stride_violated"
   ],
   "note": "proved for downward closed conditions, unit stride, no break; refuted for conditions that are not downward closed, for break and for symbolic strides, all accepted by can_be_applied"
  },
  {
   "property": "C20",
   "status": "partial",
   "theorems": [
    "Docc.IR.interchange_partial",
    "Docc.IR.interchange_inner_map_violated",
    "Docc.IR.interchange_break_violated",
    "Docc.IR.interchange_bound_violated"
   ],
   "note": "proved (memory off the private containers) when the rows are independent, as an outer Map promises, the body ends normally and does not change the headers; refuted when only the inner loop is a Map, for a break in the body and for a body that changes the inner bound"
  },
  {
   "property": "C21",
   "status": "partial",
   "theorems": [
    "Docc.IR.skew_partial",
    "Docc.IR.skew_update_violated",
    "Docc.IR.skew_access_violated"
   ],
   "note": "proved for inner updates adding a constant, bodies using the inner variable only in memlets and keeping the loop variables and the outer initial value; refuted for other updates and for bodies reading the variable as data"
  },
  {
   "property": "C22",
   "status": "partial",
   "theorems": [
    "Docc.IR.distribute_partial",
    "Docc.IR.distribute_map_partial",
    "Docc.IR.distribute_break_violated",
    "Docc.IR.distribute_overlap_violated",
    "Docc.IR.distribute_bound_violated",
    "Docc.IR.distribute_init_violated"
   ],
   "note": "proved for bodies of plain blocks under explicit independence hypotheses and a truthful dependency oracle; refuted in general by four accepted loops"
  },
  {
   "property": "C23",
   "status": "partial",
   "theorems": [
    "Docc.IR.for2map_partial",
    "Docc.IR.for2map_overlap_violated",
    "Docc.IR.for2map_ifelse_violated",
    "Docc.IR.for2map_conditional_violated",
    "Docc.IR.for2map_bound_violated",
    "Docc.IR.for2map_break_violated"
   ],
   "note": "proved for straight-line bodies over the modelled data dependency analysis when reads are covered by the writes they overlap, is_subset is inclusion and the header is not written; refuted (with truthful set oracles) for overlapping reads, a complete if-else after a write, conditionally defined locals, bodies writing the bound, break"
  },
  {
   "property": "C24",
   "status": "partial",
   "theorems": [
    "Docc.IR.transition_simultaneous_partial",
    "Docc.IR.transition_order_partial",
    "Docc.IR.transition_order_violated"
   ],
   "note": "false for cross-dependent entries, which validation accepts (refuted); proved for independent entries"
  },
  {
   "property": "C25",
   "status": "proved",
   "theorems": [
    "Docc.Types.row_major_bijection",
    "Docc.Types.total_elements_value"
   ],
   "note": ""
  },
  {
   "property": "C26",
   "status": "proved",
   "theorems": [
    "Docc.Types.newaxis_addresses",
    "Docc.Types.newaxis_total",
    "Docc.Types.flip_addresses",
    "Docc.Types.flip_flip",
    "Docc.Types.squeeze_addresses",
    "Docc.Types.squeezeAll_addresses"
   ],
   "note": ""
  },
  {
   "property": "C27",
   "status": "partial",
   "theorems": [
    "Docc.Types.reshape_order_partial",
    "Docc.Types.reshape_strided_violated"
   ],
   "note": "false for non-contiguous layouts (refuted); proved for row-major strides"
  },
  {
   "property": "C28",
   "status": "proved",
   "theorems": [
    "Docc.Types.Prim.fromStr_toStr",
    "Docc.Types.Prim.fromStr_eq_some_iff",
    "Docc.Types.Prim.toStr_injective",
    "Docc.Types.Prim.sign_conversions",
    "Docc.Types.Prim.classes_partition",
    "Docc.Types.Prim.sizeOf_least"
   ],
   "note": ""
  },
  {
   "property": "C29",
   "status": "proved",
   "theorems": [
    "Docc.Types.infer_append",
    "Docc.Types.infer_compositional",
    "Docc.Types.infer_prefix_fails",
    "Docc.Types.infer_inner_pointer",
    "Docc.Types.recombine_iff"
   ],
   "note": "a rank-0 tensor with a subset is modelled as undefined behaviour"
  },
  {
   "property": "C30",
   "status": "proved",
   "theorems": [
    "Docc.Base64.base64_round_trip",
    "Docc.Base64.base64_encode_injective"
   ],
   "note": "for encodings shorter than 2^31 characters, the range of the C++ int counters; longer input is undefined behaviour in the decoder"
  },
  {
   "property": "C31",
   "status": "proved",
   "theorems": [
    "Docc.Base64.base64_well_formed",
    "Docc.Base64.alphabet_standard"
   ],
   "note": ""
  },
  {
   "property": "C32",
   "status": "proved",
   "theorems": [
    "Docc.Capture.invocation_counts",
    "Docc.Capture.enter_strategy",
    "Docc.Capture.enter_once_first"
   ],
   "note": "32-bit counters wrap: 'once' captures again after 2^32 entries (stated in enter_strategy)"
  },
  {
   "property": "C33",
   "status": "partial",
   "theorems": [
    "Docc.Capture.captures_refine_latest",
    "Docc.Capture.capture_raw_never_inline",
    "Docc.Capture.small_capture_inline_violated"
   ],
   "note": "latest-capture-wins with exact bytes is proved; the inline half of the claim is false in the code (capture_raw falls through to the file capture) and its negation is proved"
  },
  {
   "property": "C34",
   "status": "proved",
   "theorems": [
    "Docc.Capture.index_round_trip"
   ],
   "note": "JSON text printing/parsing trusted"
  },
  {
   "property": "C35",
   "status": "partial",
   "theorems": [
    "Docc.Graph.all_simple_paths_partial",
    "Docc.Graph.all_simple_paths_acyclic",
    "Docc.Graph.all_simple_paths_violated"
   ],
   "note": "false when the source lies on a cycle (refuted); proved for acyclic graphs, and in general up to returning to the source"
  },
  {
   "property": "C36",
   "status": "partial",
   "theorems": [
    "Docc.Builder.element_ids_unique_partial",
    "Docc.Builder.element_ids_violated"
   ],
   "note": "proved for all histories of builder calls that do not lower the element counter through the public set_element_counter; refuted with it"
  },
  {
   "property": "C37",
   "status": "partial",
   "theorems": [
    "Docc.Builder.children_transitions_paired",
    "Docc.Builder.single_owner",
    "Docc.Builder.add_entries",
    "Docc.Builder.remove_child_entries",
    "Docc.Builder.move_child_entries",
    "Docc.Builder.move_children_entries",
    "Docc.Builder.move_child_reach_partial",
    "Docc.Builder.move_children_reach_partial",
    "Docc.Builder.move_child_violated",
    "Docc.Builder.builder_undefined"
   ],
   "note": "pairing, single ownership and the effect of each call proved for all histories; 'loses nothing' refuted when a child is moved into itself; move_children into itself and hoist_root are undefined behaviour"
  },
  {
   "property": "C38",
   "status": "proved",
   "theorems": [
    "Docc.Builder.find_new_name_fresh"
   ],
   "note": ""
  },
  {
   "property": "C39",
   "status": "partial",
   "theorems": [
    "Docc.Builder.merge_covers_partial",
    "Docc.Builder.merge_absent",
    "Docc.Builder.merge_violated"
   ],
   "note": "false for ranges on the same line (refuted); proved for different lines"
  },
  {
   "property": "C40",
   "status": "partial",
   "theorems": [
    "Docc.Ser.json_roundtrip_partial",
    "Docc.Ser.barrier_debug_violated",
    "Docc.Ser.invoke_violated",
    "Docc.Ser.invoke_grows",
    "Docc.Ser.cast_violated",
    "Docc.Ser.true_symbol_violated",
    "Docc.Ser.reference_violated",
    "Docc.Ser.tensor_violated",
    "Docc.Ser.rename_violated",
    "Docc.Ser.assumption_violated",
    "Docc.Ser.cmath_old_partial",
    "Docc.Ser.cmath_old_violated"
   ],
   "note": "whole document round trip proved for every loadable SDFG (any tree, any tables, all 26 library node kinds but invoke and cast) given a text codec that reads back the expressions that occur; the full claim is refuted by ten concrete documents: barrier debug range, invoke outputs, cast node, symbol true, reference attributes, tensor containers, illegal names after rename, custom assumptions, and old-format C math names"
  },
  {
   "property": "C41",
   "status": "partial",
   "theorems": [
    "Docc.Capture.nested_enter_discards",
    "Docc.Capture.capture_persists_partial"
   ],
   "note": "claim is false in the code: enter() clears all regions; negation proved, partial for histories without an intervening enter"
  },
  {
   "property": "C42",
   "status": "proved",
   "theorems": [
    "Docc.Capture.capture_files_distinct"
   ],
   "note": ""
  },
  {
   "property": "C43",
   "status": "proved",
   "theorems": [
    "Docc.Types.clone_same",
    "Docc.Types.type_eq_iff",
    "Docc.Types.type_eq_equivalence",
    "Docc.Types.clone_eq"
   ],
   "note": ""
  },
  {
   "property": "C44",
   "status": "proved",
   "theorems": [
    "Docc.Types.type_size_correct",
    "Docc.Types.type_size_static"
   ],
   "note": "structure sizes are the opaque sizeof function; scalar sizes are ceil(bits/8)"
  },
  {
   "property": "C45",
   "status": "partial",
   "theorems": [
    "Docc.Types.peel_all_partial",
    "Docc.Types.peel_all_violated",
    "Docc.Types.peel_default",
    "Docc.Types.peel_zero"
   ],
   "note": "false beyond 99 nested pointers: the countdown from -1 reaches the sentinel -100"
  },
  {
   "property": "C46",
   "status": "partial",
   "theorems": [
    "Docc.Types.is_contiguous_sound_partial",
    "Docc.Types.is_contiguous_violated"
   ],
   "note": "false for structures with array-of-pointer members (refuted); proved when members are not arrays/references"
  },
  {
   "property": "C47",
   "status": "proved",
   "theorems": [
    "Docc.Sym.div_value",
    "Docc.Sym.mod_value",
    "Docc.Sym.div_total"
   ],
   "note": ""
  },
  {
   "property": "C48",
   "status": "proved",
   "theorems": [
    "Docc.IR.users_write_complete",
    "Docc.IR.users_read_complete",
    "Docc.IR.users_return_read"
   ],
   "note": "pointers, references and views are not modelled: containers do not alias"
  },
  {
   "property": "C49",
   "status": "proved",
   "theorems": [
    "Docc.IR.isComplete_sound"
   ],
   "note": "SymEngine's simplification of the disjunction is a contract (equal truth value)"
  },
  {
   "property": "C50",
   "status": "proved",
   "theorems": [
    "Docc.IR.stride_correct"
   ],
   "note": ""
  },
  {
   "property": "C51",
   "status": "partial",
   "theorems": [
    "Docc.IR.replace_symbol_renames",
    "Docc.IR.replace_expression_partial",
    "Docc.IR.replace_access_violated"
   ],
   "note": "renaming by an unused symbol proved; substitution of expressions proved without data accesses to the symbol, refuted with them"
  },
  {
   "property": "C52",
   "status": "partial",
   "theorems": [
    "Docc.Opt.update_schedule_partial",
    "Docc.Opt.update_schedule_violated",
    "Docc.Opt.setProp_prop"
   ],
   "note": "value and properties proved; the category is never updated (refuted)"
  },
  {
   "property": "C53",
   "status": "partial",
   "theorems": [
    "Docc.Opt.schedule_filter_partial",
    "Docc.Opt.schedulerQueue_keeps",
    "Docc.Opt.schedule_filter_violated",
    "Docc.Opt.schedule_filter_self_violated",
    "Docc.Opt.schedule_filter_update_violated"
   ],
   "note": "no compatible nest is lost (proved); compatibility of the offered nests proved for at most one incompatible nest and compatible outermost loops, refuted otherwise"
  },
  {
   "property": "C54",
   "status": "partial",
   "theorems": [
    "Docc.Builder.containers_consistent_partial",
    "Docc.Builder.add_container_effect",
    "Docc.Builder.rename_container_effect_partial",
    "Docc.Builder.containers_consistent_violated",
    "Docc.Builder.rename_self_violated"
   ],
   "note": "proved for all histories whose renames go to free names; refuted for renames to an existing container or to itself"
  },
  {
   "property": "C55",
   "status": "partial",
   "theorems": [
    "Docc.Builder.failed_call_partial",
    "Docc.Builder.failed_call_violated"
   ],
   "note": "proved for names other than null, NULL, nullptr; refuted for those"
  },
  {
   "property": "C56",
   "status": "partial",
   "theorems": [
    "Docc.Builder.assumptions_fit_partial",
    "Docc.Builder.createAssum_sound",
    "Docc.Builder.createAssum_exact",
    "Docc.Builder.assumption_pointer_violated",
    "Docc.Builder.assumption_change_violated",
    "Docc.Builder.assumption_rename_violated"
   ],
   "note": "creation proved sound (and exact up to 64 bits); stale after removing a pointer, changing a type or renaming onto a container (refuted), proved otherwise"
  },
  {
   "property": "C57",
   "status": "partial",
   "theorems": [
    "Docc.IR.loopDeps_complete_partial",
    "Docc.IR.for2map_overlap_violated",
    "Docc.IR.for2map_ifelse_violated",
    "Docc.IR.for2map_conditional_violated"
   ],
   "note": "complete for straight-line bodies; refuted for branches and overlapping accesses"
  },
  {
   "property": "C58",
   "status": "proved",
   "theorems": [
    "Docc.IR.LoopTree.loops_exact",
    "Docc.IR.LoopTree.nest_contiguous",
    "Docc.IR.LoopTree.children_exact",
    "Docc.IR.LoopTree.entries_exact",
    "Docc.IR.LoopTree.parent_entry",
    "Docc.IR.LoopTree.descendants_exact",
    "Docc.IR.LoopTree.outermost_exact",
    "Docc.IR.LoopTree.is_outermost_exact",
    "Docc.IR.LoopTree.is_outermost_unknown",
    "Docc.IR.LoopTree.outermost_maps_exact",
    "Docc.IR.LoopTree.paths_exact"
   ],
   "note": "the only hypothesis is that the loops of a function are different objects"
  },
  {
   "property": "C59",
   "status": "partial",
   "theorems": [
    "Docc.IR.LoopTree.infos_exact",
    "Docc.IR.LoopTree.counts_exact",
    "Docc.IR.LoopTree.counts_add",
    "Docc.IR.LoopTree.max_depth_exact",
    "Docc.IR.LoopTree.perfect_exact",
    "Docc.IR.LoopTree.parallel_exact",
    "Docc.IR.LoopTree.elementwise_exact",
    "Docc.IR.LoopTree.effects_exact_partial",
    "Docc.IR.LoopTree.effects_sound",
    "Docc.IR.LoopTree.effects_hidden_by_map",
    "Docc.IR.LoopTree.numbering_partial",
    "Docc.IR.LoopTree.program_order_partial",
    "Docc.IR.LoopTree.order_not_program_order"
   ],
   "note": "counts, depth, perfect/parallel/elementwise exact; has_side_effects ignores everything inside Maps (refuted) and the numbering is program order only without conditionals (refuted in general)"
  },
  {
   "property": "C60",
   "status": "partial",
   "theorems": [
    "Docc.Flow.topo_complete",
    "Docc.Flow.topo_order_partial",
    "Docc.Flow.topo_inputs_partial",
    "Docc.Flow.topo_violated",
    "Docc.Flow.topo_cycle_accepted"
   ],
   "note": "never throws and lists every node once on all well formed acyclic graphs; the order is proved for layered graphs and for graphs in which only block inputs are read several times, and refuted in general by the block e := a; d := a + e; c := e; a cyclic graph is accepted"
  },
  {
   "property": "C61",
   "status": "partial",
   "theorems": [
    "Docc.Codegen.tasklet_int_partial",
    "Docc.Codegen.tasklet_unsigned_exact",
    "Docc.Codegen.tasklet_small_exact",
    "Docc.Codegen.tasklet_cmp_partial",
    "Docc.Codegen.tasklet_bool_exact",
    "Docc.Codegen.tasklet_cast_partial",
    "Docc.Codegen.tasklet_to_bool",
    "Docc.Codegen.tasklet_fp_exact",
    "Docc.Codegen.tasklet_fpcmp_partial",
    "Docc.Codegen.tasklet_text",
    "Docc.Codegen.fp_ord_violated",
    "Docc.Codegen.fp_one_violated",
    "Docc.Codegen.uint8_violated",
    "Docc.Codegen.signed_op_violated",
    "Docc.Codegen.overflow_violated"
   ],
   "note": "exact value of every operation proved for all operands under explicit conditions (and unconditionally for the wide unsigned types, small additions, Bool, floating point arithmetic); refuted in general: fp_ord and fp_one are wrong, UInt8 is emitted as char, signed operations on unsigned containers are unsigned, signed overflow is undefined"
  },
  {
   "property": "C62",
   "status": "partial",
   "theorems": [
    "Docc.Codegen.promote_partial",
    "Docc.Codegen.promote_total",
    "Docc.Codegen.ashr_violated",
    "Docc.Codegen.int128_violated",
    "Docc.Codegen.toBool_violated",
    "Docc.Codegen.array_violated",
    "Docc.Codegen.pre_violated",
    "Docc.Codegen.xor_crash",
    "Docc.Codegen.symbolic_value_violated"
   ],
   "note": "the effect is proved unchanged for every accepted block on scalars of at most 64 bits with non-negative right shift operands and no narrowing of 64 bits to Bool; refuted in general: arithmetic shifts of negative values, Int128 to Int64, Int64 to Bool, zero extension of array elements and of values written in the same block, exclusive or of two constants"
  },
  {
   "property": "C63",
   "status": "partial",
   "theorems": [
    "Docc.IR.symbol_evolution_loop_partial",
    "Docc.IR.symbol_evolution_partial",
    "Docc.IR.evolution_zero_trip_violated",
    "Docc.IR.evolution_alias_violated",
    "Docc.IR.evolution_previous_violated",
    "Docc.IR.evolution_sum_violated",
    "Docc.IR.evolution_condition_violated",
    "Docc.IR.evolution_initial_violated",
    "Docc.IR.evolution_continue_violated",
    "Docc.IR.evolution_after_violated",
    "Docc.IR.evolution_nested_violated",
    "Docc.IR.evolution_crash"
   ],
   "note": "all four closed forms proved correct inside the loop for every iteration count, and the program behind the loop for updates free of the loop variable in loops that run; refuted in general: loops that do not run, aliases of the loop variable, sums of the loop variable, conditions that read the symbol, initial expressions that change, continue, enclosing loops; crash on non-polynomial updates"
  },
  {
   "property": "C64",
   "status": "partial",
   "theorems": [
    "Docc.IR.dead_data_elimination_partial",
    "Docc.IR.dead_container_unwritten",
    "Docc.IR.dead_break_violated",
    "Docc.IR.dead_zero_trip_violated",
    "Docc.IR.dead_conditional_violated",
    "Docc.IR.dead_condition_violated",
    "Docc.IR.dead_array_violated",
    "Docc.IR.dead_branches_violated",
    "Docc.IR.dead_branch_loop_violated",
    "Docc.IR.dead_library_violated"
   ],
   "note": "proved for scalars whose writes are tidy (a decidable syntactic condition: no write that may be skipped, left by a break or continue, or hidden in an incomplete conditional, and no library output); outside of it the claim is false of the code, eight kernel-evaluated witnesses; pointers, views, moves and access nodes with several in-edges are not modelled"
  },
  {
   "property": "C65",
   "status": "partial",
   "theorems": [
    "Docc.Codegen.emitted_expression_partial",
    "Docc.Codegen.emitted_condition_partial",
    "Docc.Codegen.unsigned_comparison_wrong",
    "Docc.Codegen.unsigned_sum_wrong",
    "Docc.Codegen.product_overflow",
    "Docc.Codegen.zext_sign_extends",
    "Docc.Codegen.pow_squares_too_often",
    "Docc.Codegen.pow_in_int",
    "Docc.Codegen.dynamic_sizeof_unsupported",
    "Docc.Codegen.sizeof_comparison_wrong"
   ],
   "note": "value, precedence and (under a magnitude bound) definedness proved for all expressions and conditions over signed variables; refuted in general: unsigned variables and sizes turn comparisons and sums unsigned, int32 products overflow, zext_i64 sign-extends, powers are computed in int with one squaring too many, dynamic_sizeof throws"
  },
  {
   "property": "C66",
   "status": "partial",
   "theorems": [
    "Docc.Expand.elementwise_partial",
    "Docc.Expand.transpose_partial",
    "Docc.Expand.broadcast_partial",
    "Docc.Expand.broadcast_scalar_partial",
    "Docc.Expand.permuted_onto",
    "Docc.Expand.rowMajor_injective",
    "Docc.Expand.put_den",
    "Docc.Expand.transpose_in_place_violated",
    "Docc.Expand.transpose_not_a_permutation_violated",
    "Docc.Expand.elementwise_overlap_violated",
    "Docc.Expand.put_others_violated",
    "Docc.Expand.putBroadcast_violated",
    "Docc.Expand.broadcast_symbolic_one_violated",
    "Docc.Expand.broadcast_lower_rank_violated",
    "Docc.Expand.broadcast_rank_zero_violated"
   ],
   "note": "proved for every rank, symbolic shape and layout when inputs are in other containers or have the output's layout; refuted in general: transposition in place, overlapping views, perm that is not a permutation, other computations of the block, and for broadcasts the transition, symbolic extents of 1, lower rank and rank 0"
  },
  {
   "property": "C67",
   "status": "partial",
   "theorems": [
    "Docc.Expand.reduce_partial",
    "Docc.Expand.sum_partial",
    "Docc.Expand.max_partial",
    "Docc.Expand.mean_partial",
    "Docc.Expand.mean_trans",
    "Docc.Expand.normAxes_none",
    "Docc.Expand.mean_duplicate_axis_violated",
    "Docc.Expand.mean_negative_axis_violated",
    "Docc.Expand.reduce_in_place_violated"
   ],
   "note": "proved for every rank, shape, axes and layout with input and output in different containers (Mean: no dimension named twice); refuted in general: a mean over axes that name a dimension twice counts it twice, a reduction into its own input loses the input"
  },
  {
   "property": "C68",
   "status": "partial",
   "theorems": [
    "Docc.Expand.gemm_partial",
    "Docc.Expand.gemm_exact_partial",
    "Docc.Expand.matmul_partial",
    "Docc.Expand.gemm_refused",
    "Docc.Expand.gemm_colMajor_violated",
    "Docc.Expand.gemm_beta_zero_violated",
    "Docc.Expand.matmul_offset_violated",
    "Docc.Expand.matmul_batch_violated",
    "Docc.Expand.matmul_output_violated"
   ],
   "note": "proved: row-major GEMM without transposition for all extents, leading dimensions and factors (any arithmetic, and exact), C updated in place or not; MatMul of two matrices with inputs of any strides; refuted in general: the layout of a GEMM is ignored, beta = 0 reads C, the offset of a copied view is applied twice, references of batches are made before the batch loops, the output's layout is ignored"
  },
  {
   "property": "C69",
   "status": "partial",
   "theorems": [
    "Docc.IR.assumptions_sound_partial",
    "Docc.IR.constants_sound_partial",
    "Docc.IR.parameters_sound",
    "Docc.IR.grows_of_affine",
    "Docc.IR.disjunction_bound_violated",
    "Docc.IR.inclusive_bound_violated",
    "Docc.IR.sum_bound_violated",
    "Docc.IR.decreasing_bound_violated",
    "Docc.IR.own_init_violated",
    "Docc.IR.strided_index_violated",
    "Docc.IR.reversed_index_violated",
    "Docc.IR.dimensions_swapped_violated",
    "Docc.IR.conditional_access_violated",
    "Docc.IR.other_loop_access_violated",
    "Docc.IR.step_bound_violated",
    "Docc.IR.init_changed_violated",
    "Docc.IR.nested_variable_violated",
    "Docc.IR.condition_symbol_constant_violated",
    "Docc.IR.tiled_assumptions_contradictory"
   ],
   "note": "bounds proved sound for every program whose loops meet LoopOk (stable header, growing variable, plain upper bound, unit-stride in-bounds accesses); constancy proved for every symbol except those taken from loop conditions; parameters proved in full; refuted in general with 14 witnesses, and for every loop produced by tiling the reported bounds contradict each other"
  },
  {
   "property": "C70",
   "status": "partial",
   "theorems": [
    "Docc.Struct.structure_correct_partial",
    "Docc.Struct.structure_acyclic",
    "Docc.Struct.structure_correct_of_events",
    "Docc.Struct.wellNested_sound",
    "Docc.Struct.structure_return_violated",
    "Docc.Struct.structure_outer_continue_violated",
    "Docc.Struct.structure_inner_exit_violated",
    "Docc.Struct.structure_outer_break_violated",
    "Docc.Struct.structure_irreducible_violated"
   ],
   "note": "proved for all machines whose loops are well nested (single entry, single successor state, no jump across two loops), for whatever trees Boost returns, in particular for all acyclic machines; refuted in general: returns out of endless loops, jumps to outer headers or exits and irreducible loops are accepted and compiled to something else"
  },
  {
   "property": "C71",
   "status": "partial",
   "theorems": [
    "Docc.IR.dominates_sound_partial",
    "Docc.IR.performs_iff",
    "Docc.IR.dominates_unsound_for",
    "Docc.IR.dominates_unsound_continue"
   ],
   "note": "proved for all programs (with While loops left and continued anywhere, returns, non-terminating executions) whose For/Map loops have a symbol in the condition and are not left by break/continue; refuted for those"
  },
  {
   "property": "C72",
   "status": "partial",
   "theorems": [
    "Docc.IR.uses_after_complete_partial",
    "Docc.IR.uses_between_complete_partial",
    "Docc.IR.uses_after_incomplete",
    "Docc.IR.uses_between_incomplete"
   ],
   "note": "all_uses_after proved for all programs except the re-read of non-last symbols of a loop condition (refuted there); all_uses_between proved without break/continue and for loop conditions with a symbol, refuted with break"
  },
  {
   "property": "C73",
   "status": "partial",
   "theorems": [
    "Docc.IR.post_dominates_sound_partial",
    "Docc.IR.post_dominates_unsound_break"
   ],
   "note": "proved for all terminating executions, incl. those ended by a return, of programs without break/continue whose loop conditions have a symbol; refuted with break"
  },
  {
   "property": "C74",
   "status": "partial",
   "theorems": [
    "Docc.IR.view_complete_partial",
    "Docc.IR.view_sound",
    "Docc.IR.view_misses_return"
   ],
   "note": "soundness proved in full; completeness proved for all programs and nodes except for the read of returned data, for which it is refuted"
  },
  {
   "property": "C75",
   "status": "partial",
   "theorems": [
    "Docc.IR.symbol_propagation_partial",
    "Docc.IR.propInverse_sum_partial",
    "Docc.IR.propInverse_product_partial",
    "Docc.IR.symbol_propagation_loop",
    "Docc.IR.symbol_propagation_transition",
    "Docc.IR.symbol_propagation_inverse",
    "Docc.IR.symbol_propagation_inverse_loop",
    "Docc.IR.symbol_propagation_reverse"
   ],
   "note": "forward propagation proved to preserve the meaning of the whole program when no write of a symbol of e lies between write and read and the reading transition assigns none of the symbols; refuted: writes behind the read in a loop, transitions that assign the symbols themselves, inverse of sums with three arguments, inverse in a loop, reverse propagation across uses of the target"
  },
  {
   "property": "C76",
   "status": "partial",
   "theorems": [
    "Docc.IR.constant_propagation_partial",
    "Docc.IR.constant_propagation_rhs",
    "Docc.IR.constant_propagation_index"
   ],
   "note": "proved to preserve the meaning of the whole program for definitions that really are identical and whose subsets do not use the defined container; refuted: right-hand sides and operations are never compared (i := n+1; i := n+2), and i = a[i] twice"
  },
  {
   "property": "C77",
   "status": "partial",
   "theorems": [
    "Docc.IR.race_free_order",
    "Docc.IR.block_fusion_partial",
    "Docc.IR.block_fusion_criterion",
    "Docc.IR.block_fusion_violated"
   ],
   "note": "proved for every order that respects the memlets when conflicting computations of the two blocks are connected in the fused graph, and from the criterion of the pass when the computations of a component lead to the connecting sinks and the connecting sources lead to the computations; refuted for the criterion alone: y = x and z = y + a; x = a * a are fused and x is overwritten before it is read"
  },
  {
   "property": "C78",
   "status": "partial",
   "theorems": [
    "Docc.IR.tasklet_fusion_output",
    "Docc.IR.tasklet_fusion_input_partial",
    "Docc.IR.tasklet_fusion_violated"
   ],
   "note": "results: proved in full for blocks without races; operands: proved when whatever writes an operand of the assignment leads to the assignment; refuted otherwise: t = x; x = t + t; z = t + b reads x after it is overwritten"
  },
  {
   "property": "C79",
   "status": "proved",
   "theorems": [
    "Docc.Struct.unify_exits_same",
    "Docc.Struct.unify_exits_single",
    "Docc.Struct.unify_exits_done",
    "Docc.Struct.mem_natural"
   ],
   "note": "all state machines whose edges lead to states; both directions of the equivalence"
  },
  {
   "property": "C80",
   "status": "partial",
   "theorems": [
    "Docc.Struct.add_state_before_partial",
    "Docc.Struct.add_state_after_partial",
    "Docc.Struct.add_loop_partial",
    "Docc.Struct.add_return_after_partial",
    "Docc.Struct.add_state_before_violated",
    "Docc.Struct.add_state_after_violated",
    "Docc.Struct.add_return_after_violated"
   ],
   "note": "proved when the redirected edges have no assignments; refuted otherwise: the builder copies only the condition of a redirected edge, so x = 1 on the edge is lost; add_return_state_after throws for every state with a successor"
  },
  {
   "property": "C81",
   "status": "partial",
   "theorems": [
    "Docc.IR.safe_trunc_value",
    "Docc.IR.type_minimization_partial",
    "Docc.IR.type_minimization_violated"
   ],
   "note": "proved for every program whose reported assumptions hold (C69) when the loop or block does not change the symbols of a removed truncation; refuted otherwise: for (i = 1; trunc_i32(i) < 3; i += 2^32 + 1) inside a loop that bounds i, the entry bounds are applied to later tests of the condition"
  },
  {
   "property": "C82",
   "status": "partial",
   "theorems": [
    "Docc.Types.memlet_linearization",
    "Docc.Types.tensor_to_pointer_partial",
    "Docc.Types.tensor_to_pointer_throws",
    "Docc.Types.tensor_to_pointer_violated",
    "Docc.Types.trivial_arrays_partial",
    "Docc.Types.trivial_arrays_violated"
   ],
   "note": "linearization proved in full; tensor conversion proved for element accesses, refuted for valid subsets with fewer indices than dimensions (the pass throws out_of_range); trivial dimensions proved for containers indexed with their own type, refuted otherwise: a library node using the whole array makes subset.erase undefined, and an element read through a pointer base type loses its index"
  },
  {
   "property": "C83",
   "status": "partial",
   "theorems": [
    "Docc.IR.map_fusion_partial",
    "Docc.IR.map_fusion_range_violated",
    "Docc.IR.map_fusion_stride_violated",
    "Docc.IR.map_fusion_input_violated",
    "Docc.IR.map_fusion_variable_violated",
    "Docc.IR.map_fusion_scalar_violated",
    "Docc.IR.map_fusion_symbol_violated",
    "Docc.IR.map_fusion_shared_node_violated"
   ],
   "note": "proved when the map wrote every element the loop reads, neither loop changes what the map's block reads, the block does not read the map's variable as data and its other results are not used by the loop; each of these is needed and none is checked: seven accepted programs that are changed, among them map i { A[i] = i }; for k { C[k] = A[k] } and a loop that reads beyond the map's range"
  },
  {
   "property": "C84",
   "status": "partial",
   "theorems": [
    "Docc.IR.mem_access_ranges_partial",
    "Docc.IR.unaccessed_irrelevant",
    "Docc.IR.ranges_suffice_partial",
    "Docc.IR.library_range_violated",
    "Docc.IR.changed_index_range_violated",
    "Docc.IR.division_range_violated"
   ],
   "note": "proved when the assumptions reported for the blocks hold (C69), the bounds contain no function, the container is no operand of a library node of the region and no block writes a symbol of its own subsets; each exception is refuted: a library node's operands are ignored, A[i / 2] gets the bounds zext(i), and i = 9; A[i] in one block gets the range of the old i"
  },
  {
   "property": "C85",
   "status": "partial",
   "theorems": [
    "Docc.IR.locals_private",
    "Docc.IR.outside_is_argument",
    "Docc.IR.argument_flags",
    "Docc.IR.arguments_suffice",
    "Docc.IR.outline_partial",
    "Docc.IR.localsDead_of_fresh",
    "Docc.IR.carried_local_violated"
   ],
   "note": "classification, flags and dependence are proved for every region; outlining is proved when the contents of the locals at entry do not matter, for which assigning scalars before reading them is sufficient; refuted without: a local can carry a value from one execution of the region to the next. Pointers (moves, views, aliases) are not in the model"
  },
  {
   "property": "C86",
   "status": "partial",
   "theorems": [
    "Docc.IR.offload_partial",
    "Docc.IR.negative_index_violated"
   ],
   "note": "proved when the accesses stay at or after the pointer and within the nested array extents, the contents of the locals at entry do not matter (C85) and the ranges are computed as in C84; refuted without the first: only the upper bound of the first dimension determines the copied bytes, so A[k - 1] with k = 0 reads uninitialised device memory. Sizes are in elements; structures as arguments, aliasing pointers and dynamic sizes are not in the model; the kernel is executed sequentially (C87 treats the launch)"
  },
  {
   "property": "C87",
   "status": "partial",
   "theorems": [
    "Docc.IR.cuda_launch_partial",
    "Docc.IR.cuda_parallelize_nested_partial",
    "Docc.IR.cuda_imperfect_nest_violated",
    "Docc.IR.cuda_sibling_bounds_violated",
    "Docc.IR.cuda_nest_launchable_partial",
    "Docc.IR.cuda_dimension_reuse_violated"
   ],
   "note": "proved for perfect nests of one to three maps with independent instances, every grid and every order of the threads; refuted without: code beside a nested map is executed by every thread of the nested dimension, and two nested maps of one dimension get the grid of whichever is found first; nests on X, Y stay launchable, a nest on Y, X does not (the dimension Y is given again and the dispatcher throws). Threads run one after the other; nested_sync and hardware limits are not in the theorem"
  },
  {
   "property": "C88",
   "status": "partial",
   "theorems": [
    "Docc.IR.pipeline_fixed_point",
    "Docc.IR.pipeline_deterministic",
    "Docc.IR.pipeline_idempotent",
    "Docc.IR.pipeline_keeps",
    "Docc.IR.pipeline_terminates",
    "Docc.IR.pipeline_diverges",
    "Docc.IR.unreported_change_stale",
    "Docc.IR.dead_code_pipeline",
    "Docc.IR.dead_code_pipeline_partial"
   ],
   "note": "proved for passes that report every change they make and depend on analyses only through correct cached results; termination when reported changes decrease a size (otherwise two honest passes can undo each other forever, and an unreported change leaves outdated analyses). For DeadCodeElimination all of this is proved of the two passes; that it keeps the executions needs the conditions of C14/C15"
  },
  {
   "property": "C89",
   "status": "partial",
   "theorems": [
    "Docc.Builder.clear_code",
    "Docc.Builder.clear_access_partial",
    "Docc.Builder.clear_access_twice_violated",
    "Docc.Builder.clear_access_dangling_violated"
   ],
   "note": "proved for every tasklet and library node; for access nodes if the code nodes that compute it have no other output and access nodes losing several memlets keep another one; refuted without: clearing y after y = x * x through one access node touches x after destroying it, and clearing one of two results of a library node leaves a memlet from a destroyed node"
  },
  {
   "property": "C90",
   "status": "partial",
   "theorems": [
    "Docc.IR.dead_references_preserve",
    "Docc.IR.dead_references_containers",
    "Docc.IR.dead_references_report_partial",
    "Docc.IR.unused_pointer_unreported_violated",
    "Docc.IR.deleted_pointer_mentioned_violated"
   ],
   "note": "behaviour and the choice of the deleted pointers are proved for every function; refuted: pointers without uses are deleted although the pass returns false, and a deleted pointer may still be mentioned in code behind a Return"
  },
  {
   "property": "C91",
   "status": "partial",
   "theorems": [
    "Docc.Types.reference_node_partial",
    "Docc.Types.reference_twice_violated",
    "Docc.Types.reference_moved_violated",
    "Docc.Types.reference_member_violated",
    "Docc.IR.reference_flow_partial",
    "Docc.IR.reference_line_partial",
    "Docc.IR.reference_index_violated",
    "Docc.IR.reference_recursive_violated",
    "Docc.IR.reference_analysis_violated"
   ],
   "note": "memlets: same address and type for every access node with one kind of memlets and a reference whose last subscript is an index; flow: proved when the analysis answers the last move, the index symbols are unchanged between move and use and the pointer is not moved by itself (no break/continue). Refuted: access nodes read and written are rewritten twice, the reference memlet itself is rewritten, members become variable indices, changed index symbols, recursive moves, and ReferenceAnalysis misses moves that leave a loop by Break before a Return"
  },
  {
   "property": "C92",
   "status": "partial",
   "theorems": [
    "Docc.IR.out_local_scalar_partial",
    "Docc.IR.out_local_array_partial",
    "Docc.IR.local_array_bounds_partial",
    "Docc.IR.out_local_one_user",
    "Docc.IR.out_local_transition",
    "Docc.IR.out_local_return",
    "Docc.IR.out_local_same_element",
    "Docc.IR.out_local_bounds"
   ],
   "note": "proved for accepted loops without Return whose transition does not use the container or its index, scalar: any loop; array: finite loops with an unchanged header whose iterations access different elements; bounds for loops from 0 upwards. Refuted without: two subsets on one access node, transition executed before the copy back, Return, iterations sharing an element, loops not starting at 0 or with the bound on the left"
  },
  {
   "property": "C93",
   "status": "partial",
   "theorems": [
    "Docc.IR.gpu_inside",
    "Docc.IR.gpu_outside_partial",
    "Docc.IR.gpu_barriers_partial",
    "Docc.IR.gpu_exposed_violated",
    "Docc.IR.gpu_barrier_violated",
    "Docc.IR.gpu_accepts_violated"
   ],
   "note": "inside: full equality of executions when the body does not write what the condition reads; outside: no change of containers written only by code that mentions the map variable; barriers: same way through the body when it depends on uniform containers only and guarded code neither jumps nor returns. Refuted: code depending on the map variable indirectly is executed outside the iteration space; a break under the condition makes a thread outside wait at barriers forever; nested sequences throw and if-else branches without barriers are undefined behaviour."
  },
  {
   "property": "C94",
   "status": "partial",
   "theorems": [
    "Docc.IR.dtm_same_partial",
    "Docc.IR.dtm_alias_partial",
    "Docc.IR.rrt_partial",
    "Docc.IR.dtm_output_violated",
    "Docc.IR.dtm_buffer_violated",
    "Docc.IR.dtm_size_violated",
    "Docc.IR.dtm_alias_violated",
    "Docc.IR.rrt_size_violated"
   ],
   "note": "proved for pairs of transfers in the root sequence when neither the buffer nor the size symbols are written in between: same outcome and memory except the host container no longer copied out (and the renamed buffers); exact equality for overwritten copy-outs. Refuted: outputs of the function are not copied out any more, a buffer changed in between, size symbols reassigned in between, buffers that stay in use become aliases. Not modelled: check_container_dependency (pointers captured in arrays), leaks of buffers."
  },
  {
   "property": "C95",
   "status": "partial",
   "theorems": [
    "Docc.IR.allocation_managed_partial",
    "Docc.IR.allocation_managed_same_partial",
    "Docc.IR.deallocation_managed_partial",
    "Docc.IR.owned_managed_partial",
    "Docc.IR.allocation_size_changes",
    "Docc.IR.allocation_leaks",
    "Docc.IR.deallocation_frees_garbage"
   ],
   "note": "proved from the dominance and post-dominance answers of the analysis (C71, C73): same outcome and state; only executions that return before the allocation differ, in the managed container alone; with both nodes managed these allocate and free one block in addition. Missing: programs with break/continue or loops whose condition has no symbol (there the analyses are wrong). Refuted: a parameter in the size that is reassigned before the allocation, a block leaked by an early return, an early return that frees an uninitialised pointer. Not modelled: nodes in the same block, the free before `return data` of a managed pointer."
  },
  {
   "property": "C96",
   "status": "partial",
   "theorems": [
    "Docc.IR.non_escaping_stays_partial",
    "Docc.IR.last_use_is_last_partial",
    "Docc.IR.last_use_outside_partial",
    "Docc.IR.last_use_in_iteration_partial",
    "Docc.IR.free_at_last_use_partial",
    "Docc.IR.last_use_before_loop",
    "Docc.IR.last_use_before_exit",
    "Docc.IR.last_use_not_reached"
   ],
   "note": "proved: not returned and local; without uses in loops no later use in any execution, and a free behind the block of the last use changes nothing else; with uses in loops, no later use by a block outside loops; for an allocation in a loop, no other later use in the same iteration. Refuted: a loop behind the allocation uses the block after the reported last use; uses behind the loop of the allocation are overlooked; the last use lies in a branch that an execution need not take. Not modelled: pointer memlets (the second escape check), stores of the pointer"
  },
  {
   "property": "C97",
   "status": "partial",
   "theorems": [
    "Docc.IR.flops_precise_partial",
    "Docc.IR.flops_precise_flat_partial",
    "Docc.IR.stride_is_step",
    "Docc.IR.flops_precise_return_partial",
    "Docc.IR.not_precise",
    "Docc.IR.cost_erase",
    "Docc.IR.negative_range_violated",
    "Docc.IR.break_violated",
    "Docc.IR.early_return_violated",
    "Docc.IR.assigned_symbol_violated",
    "Docc.IR.conjunct_violated",
    "Docc.IR.symbolic_stride_violated"
   ],
   "note": "proved: exact for jump-free programs (a return at the end allowed) whose loops count up by one to a bound, with ranges at least empty where there is something to count, and whose symbols in the expression the program does not assign. Refuted although called precise: a loop with negative range (negative count), break or return in a loop, a bound assigned outside the sequence of the loop, a condition with a further conjunct, a symbolic stride. Library nodes count what their flop() tells. Not modelled: the 64 bit exception in div, the values of canonicalised expressions beyond zeros and integers"
  },
  {
   "property": "C98",
   "status": "partial",
   "theorems": [
    "Docc.IR.block_sort_partial",
    "Docc.IR.block_sort_perm",
    "Docc.IR.block_sort_reports",
    "Docc.IR.block_sort_up_done",
    "Docc.IR.block_sort_down_done",
    "Docc.IR.aliased_violated"
   ],
   "note": "proved: same executions for all programs whose containers do not share memory, where library nodes that access containers without memlets report side effects; permutation, report flag and stability. Refuted for a pointer into another container (memset moves above a read through the pointer). References are modelled as computations of a pointer value"
  },
  {
   "property": "C99",
   "status": "partial",
   "theorems": [
    "Docc.IR.hoist_if_partial",
    "Docc.IR.hoist_if_front_partial",
    "Docc.IR.hoist_if_back_partial",
    "Docc.IR.hoist_map_front_partial",
    "Docc.IR.hoist_map_back_partial",
    "Docc.IR.hoist_map_partial",
    "Docc.IR.hoist_if_conds",
    "Docc.IR.hoist_other",
    "Docc.IR.hoisted_front_kind",
    "Docc.IR.hoisted_back_kind",
    "Docc.IR.map_trans_violated",
    "Docc.IR.empty_map_violated",
    "Docc.IR.reset_violated",
    "Docc.IR.condition_violated",
    "Docc.IR.trans_violated",
    "Docc.IR.device_violated"
   ],
   "note": "proved: same executions for if-elses when the blocks write no symbol of a condition, have nothing to do with the assignments that follow and are no transfers that differ in the device container; for maps with at least one iteration when nothing else in the map touches what the block writes. Refuted: maps without iterations, a container the rest of the body changes, blocks that write a symbol of the condition, assignments behind the if-else, transfers from different device containers. Not modelled: schedule types"
  }
 ]
}