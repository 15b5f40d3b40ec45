{"claims": [
 {"property": "C01", "status": "proved", "theorems": ["Marco.Props.C01_iteration", "Marco.Props.C01_emits_unique"], "note": ""},
 {"property": "C02", "status": "proved", "theorems": ["Marco.Props.C02_containsInt", "Marco.Props.C02_containsRange", "Marco.Props.C02_overlaps", "Marco.Props.C02_intersect", "Marco.Props.C02_canBeMerged", "Marco.Props.C02_merge", "Marco.Props.C02_subtract"], "note": ""},
 {"property": "C03", "status": "proved", "theorems": ["Marco.Props.C03_subtract_partition", "Marco.Props.C03_subtract_covered", "Marco.Props.C03_subtract_disjoint"], "note": ""},
 {"property": "C04", "status": "proved", "theorems": ["Marco.Props.C04_merge_exact", "Marco.Props.C04_merge_complete"], "note": ""},
 {"property": "C05", "status": "proved", "theorems": ["Marco.Props.C05_range", "Marco.Props.C05_range_compare", "Marco.Props.C05_point", "Marco.Props.C05_box", "Marco.Props.C05_box_gt"], "note": ""},
 {"property": "C06", "status": "partial", "theorems": ["Marco.Props.C06_eqPoint_partial", "Marco.Props.C06_eqPoint_false"], "note": "False of the code: Range::operator!=(data_type) uses && so [5,7) == 5; negation proved."},
 {"property": "C07", "status": "partial", "theorems": ["Marco.Props.C07_exact_partial", "Marco.Props.C07_history_partial", "Marco.Props.C07_apart_partial", "Marco.Props.C07_points_partial", "Marco.Props.C07_history_false"], "note": "Whenever a history is executed without undefined behaviour the result is exact. The absence of undefined behaviour is false in general (26 insertions of rank 2 use a destroyed node); it is proved for any number of boxes that cannot be merged and for any sixteen points."},
 {"property": "C08", "status": "partial", "theorems": ["Marco.Props.C08_each_once", "Marco.Props.C08_history_partial", "Marco.Props.C08_apart_partial", "Marco.Props.C08_points_partial", "Marco.Props.C08_history_false"], "note": "As for C07: everything holds of the histories executed without undefined behaviour."},
 {"property": "C09", "status": "partial", "theorems": ["Marco.Props.C09_fromRanges_partial", "Marco.Props.C09_disjoint_false"], "note": "Points exact for every list. Disjointness and size are false for overlapping boxes (setFromRanges stops at the first range overlapping in no dimension): negation proved; they hold for disjoint boxes and for points."},
 {"property": "C10", "status": "partial", "theorems": ["Marco.Props.C10_containsPoint", "Marco.Props.C10_containsBox", "Marco.Props.C10_overlapsBox", "Marco.Props.C10_overlapsSet", "Marco.Props.C10_containsSet_partial", "Marco.Props.C10_containsSet_sound", "Marco.Props.C10_containsSet_false"], "note": "contains(set) compares sizes first, wrong when the argument stores overlapping ranges (negation proved); the other queries are proved in full."},
 {"property": "C11", "status": "partial", "theorems": ["Marco.Props.C11_intersectBox", "Marco.Props.C11_intersectSet", "Marco.Props.C11_complement", "Marco.Props.C11_difference_false", "Marco.Props.C11_difference_partial", "Marco.Props.C11_differenceSet_partial", "Marco.Props.C11_differenceSet_bounds_partial"], "note": "intersect and complement in full. operator- copies and removes in place, and may keep points of the second operand (negation proved); exact when the leaves keep enough objects, and never wrong about the other points."},
 {"property": "C12", "status": "proved", "theorems": ["Marco.Props.C12_takeDims", "Marco.Props.C12_takeFirst", "Marco.Props.C12_takeLast", "Marco.Props.C12_dropFirst", "Marco.Props.C12_dropLast", "Marco.Props.C12_append", "Marco.Props.C12_prepend"], "note": ""},
 {"property": "C13", "status": "partial", "theorems": ["Marco.Props.C13_compact_partial", "Marco.Props.C13_disjoint_false", "Marco.Props.C13_split_terminates"], "note": "Points and equality proved in full; disjointness false when the stored ranges overlap (negation proved), proved otherwise."},
 {"property": "C14", "status": "partial", "theorems": ["Marco.Props.C14_eq_partial", "Marco.Props.C14_eq_nonempty", "Marco.Props.C14_eq_false"], "note": "False for empty sets remembering different ranks (negation proved); exact otherwise."},
 {"property": "C15", "status": "proved", "theorems": ["Marco.Props.C15_visit", "Marco.Props.C15_walk", "Marco.Props.C15_pairs"], "note": ""},
 {"property": "C16", "status": "proved", "theorems": ["Marco.Props.C16_insert", "Marco.Props.C16_insert_empty", "Marco.Props.C16_heuristics", "Marco.Props.C16_history"], "note": "For the class RTree, whose insertion hook does nothing. The hook of the index sets merges objects: see C07."},
 {"property": "C17", "status": "partial", "theorems": ["Marco.Props.C17_bulk_partial", "Marco.Props.C17_bulk_false"], "note": "Minimum fan-out of inner nodes is false from 68 objects on (negation proved); objects, boundaries, uniform depth and maximum fan-out proved."},
 {"property": "C18", "status": "partial", "theorems": ["Marco.Props.C18_points_left_false", "Marco.Props.C18_memory_false", "Marco.Props.C18_box_partial", "Marco.Props.C18_set_partial", "Marco.Props.C18_histories", "Marco.Props.C18_exact_partial", "Marco.Props.C18_one_leaf_partial", "Marco.Props.C18_set_exact_partial"], "note": "Both halves are false (negations proved): a removal that collapses a leaf may keep points of the box, and may compute the boundary of an empty node. For every history and any heuristic choice: no other point is removed and none is added; the removal is total and exact when the leaves keep enough objects or the set is stored in one leaf; exact when the box overlaps one leaf only."},
 {"property": "C19", "status": "partial", "theorems": ["Marco.Props.C19_map_partial", "Marco.Props.C19_map_false", "Marco.Props.C19_roundtrip"], "note": "False for divisions: the affine floordiv rounds down, map() truncates (negation proved at d0 floordiv 2, d0 = -1); proved when divisions are exact or of non-negative operands."},
 {"property": "C20", "status": "partial", "theorems": ["Marco.Props.C20_combine_partial", "Marco.Props.C20_combine_false"], "note": "False with divisions (same rounding mismatch, after simplification; negation proved); proved for expressions without division, for every simplifier preserving values."},
 {"property": "C21", "status": "proved", "theorems": ["Marco.Props.C21_isInvertible", "Marco.Props.C21_inverse"], "note": ""},
 {"property": "C22", "status": "partial", "theorems": ["Marco.Props.C22_image_partial", "Marco.Props.C22_defined", "Marco.Props.C22_generic", "Marco.Props.C22_image_false"], "note": "False for offset accesses using a dimension twice (the image of (i) -> (i,i) is the full square): negation proved; proved for the other offset accesses, constant accesses and generic accesses."},
 {"property": "C23", "status": "partial", "theorems": ["Marco.Props.C23_roto", "Marco.Props.C23_inverseMap_partial", "Marco.Props.C23_generic", "Marco.Props.C23_const", "Marco.Props.C23_inverseMap_false", "Marco.Props.C23_const_false"], "note": "False: invertible accesses ignore the parent set, constant accesses test the reverse containment (negations proved). Proved: never misses a point (offset accesses), exactness under stated conditions."},
 {"property": "C24", "status": "partial", "theorems": ["Marco.Props.C24_set_partial", "Marco.Props.C24_unset_partial", "Marco.Props.C24_reach", "Marco.Props.C24_set_false", "Marco.Props.C24_unset_false"], "note": "False: set() may invert the access of a group on the variable and add another equation; unset() drops the groups it does not touch (negations proved). Proved: unset() always clears the entry and adds none; both are pointwise if the groups map the equation to the variable. Offset/permutation and constant accesses."},
 {"property": "C25", "status": "partial", "theorems": ["Marco.Props.C25_apply_partial", "Marco.Props.C25_apply_box_partial", "Marco.Props.C25_new", "Marco.Props.C25_apply_false"], "note": "False for accesses with several values per equation (negation proved); proved for permutations with offsets and for constants, any matrix and any part of the equation space; with unused dimensions or constant results for one box of equations."},
 {"property": "C26", "status": "partial", "theorems": ["Marco.Props.C26_flattenRows_partial", "Marco.Props.C26_flattenColumns_partial", "Marco.Props.C26_filterRows_partial", "Marco.Props.C26_filterColumns_partial", "Marco.Props.C26_plus_partial", "Marco.Props.C26_minus_partial", "Marco.Props.C26_plus_false", "Marco.Props.C26_minus_points_false", "Marco.Props.C26_minus_functions_false", "Marco.Props.C26_plus_points_partial", "Marco.Props.C26_flatten_scalar_partial"], "note": "Sum false if the right operand has additional points, difference false across different accesses and for additional points (negations proved). Flattening and filters proved for permutation/constant accesses."},
 {"property": "C27", "status": "partial", "theorems": ["Marco.Props.C27_solveVAF_partial", "Marco.Props.C27_solveMCIM_partial", "Marco.Props.C27_enumerate_false", "Marco.Props.C27_cover_false", "Marco.Props.C27_list_partial", "Marco.Props.C27_isValid"], "note": "False: with two accesses the second is skipped and operator[] never returns; constant accesses with ranges announce no solution (negations proved). Proved for one access (offset/permutation with unused dimensions and constant results, constants) and for matrices made of such groups: containment, at most one match per index, coverage, termination of the enumeration. For any list of accesses: what is enumerated is what the accesses other than the second yield (C27_list_partial); isValid is exact (C27_isValid)."},
 {"property": "C28", "status": "proved", "theorems": ["Marco.Props.C28_partition", "Marco.Props.C28_removeMatch_unchecked", "Marco.Props.C28_equation_removeIndices_ub"], "note": "Histories of addMatch/removeMatch/removeIndices/setMatchableIndices under their preconditions. EquationVertex::removeIndices reads a moved-from set: recorded as undefined behaviour."},
 {"property": "C29", "status": "proved", "theorems": ["Marco.Props.C29_applyPath", "Marco.Props.C29_grows"], "note": "Incidence matrices at the level of sets of pairs; paths that visit no scalar twice."},
 {"property": "C30", "status": "partial", "theorems": ["Marco.Props.C30_match_partial", "Marco.Props.C30_match_scalar", "Marco.Props.C30_match_false", "Marco.Props.C30_leaf_ub"], "note": "False: overlapping paths may be applied together (negation proved on a run returning true with a wrong matching). Proved for runs whose candidates visit every array vertex at most once, hence for all scalar systems. Scalarization not modelled."},
 {"property": "C31", "status": "partial", "theorems": ["Marco.Props.C31_filter_partial", "Marco.Props.C31_disjoint", "Marco.Props.C31_candidates", "Marco.Props.C31_filter_false"], "note": "False: a path through the same array vertex twice forgets its first visit (negation proved on candidates of a reachable state). Proved otherwise, for every schedule and every stale view of the early check."},
 {"property": "C32", "status": "partial", "theorems": ["Marco.Props.C32_array_partial", "Marco.Props.C32_complete", "Marco.Props.C32_order", "Marco.Props.C32_array_false"], "note": "False: the read x[i,i] is mapped to the full square, so the graph has edges that are no dependencies (negation proved). For affine accesses every dependency is an edge and the order is irrelevant; exact when no offset access uses an index twice."},
 {"property": "C33", "status": "partial", "theorems": ["Marco.Props.C33_scalar_partial", "Marco.Props.C33_sound", "Marco.Props.C33_scalar_false"], "note": "False: reads of several elements are compared as a whole with the written element (negation proved). Every edge is a dependency; exact when the reads are of single elements."},
 {"property": "C34", "status": "proved", "theorems": ["Marco.Props.C34_schedule", "Marco.Props.C34_once", "Marco.Props.C34_scalars"], "note": "Order of the components, and of the scalar equations of a component that is not schedulable as a range."},
 {"property": "C35", "status": "partial", "theorems": ["Marco.Props.C35_order_partial", "Marco.Props.C35_loops_partial", "Marco.Props.C35_scalars_partial", "Marco.Props.C35_full_false"], "note": "Proved for affine reads without divisions, every loop order the directions allow. False with divisions: the relative access is computed by combine (negation proved)."},
 {"property": "C36", "status": "proved", "theorems": ["Marco.Props.C36_merge_meaning", "Marco.Props.C36_fold_meaning", "Marco.Props.C36_perm", "Marco.Props.C36_least", "Marco.Props.C36_vectors", "Marco.Props.C36_vectors_perm"], "note": "Single directions and whole vectors."},
 {"property": "C37", "status": "partial", "theorems": ["Marco.Props.C37_full_false", "Marco.Props.C37_duplicates", "Marco.Props.C37_missing", "Marco.Props.C37_diverges", "Marco.Props.C37_only_own", "Marco.Props.C37_at_least_once_partial", "Marco.Props.C37_terminates_partial", "Marco.Props.C37_exactly_once_partial", "Marco.Props.C37_scalar_partial"], "note": "False: a scalar equation in two components, one in no component (several write accesses), endless recursion (proved with concrete systems). Proved for scalar equations; for array equations at least once, termination without dependencies inside an array equation, exactly once if the assertion of the code holds."},
 {"property": "C38", "status": "partial", "theorems": ["Marco.Props.C38_full_false", "Marco.Props.C38_separated", "Marco.Props.C38_scalar_partial"], "note": "False even for three scalar equations that share a variable (negation proved); proved for scalar equations that depend on at most one other of their component."},
 {"property": "C39", "status": "partial", "theorems": ["Marco.Props.C39_one_derivative", "Marco.Props.C39_stable", "Marco.Props.C39_acyclic_partial", "Marco.Props.C39_recorded_partial", "Marco.Props.C39_equations", "Marco.Props.C39_cycle_false", "Marco.Props.C39_lost", "Marco.Props.C39_repeat", "Marco.Props.C39_repeat_equations"], "note": "Equations: proved. Variables: one derivative per index proved; acyclicity false because a destroyed vertex stays a key of the map and its address can be reused (negation proved), proved if addresses are not reused."},
 {"property": "C40", "status": "partial", "theorems": ["Marco.Props.C40_roundtrip_partial", "Marco.Props.C40_text_exists", "Marco.Props.C40_full_false"], "note": "False for bounds from 2^31 on, truncated to int (negation proved); proved for smaller bounds, all lists of elements of all kinds."},
 {"property": "C41", "status": "partial", "theorems": ["Marco.Props.C41_visible", "Marco.Props.C41_rank", "Marco.Props.C41_elements_partial", "Marco.Props.C41_der_partial", "Marco.Props.C41_elements_full_false", "Marco.Props.C41_der_full_false"], "note": "False: the disabled filter hides derivatives, and a regular expression does not show elements outside of the ranges tracked for the same variable (negations proved). Visibility of variables and ranks proved in full."},
 {"property": "C42", "status": "partial", "theorems": ["Marco.Props.C42_bounds_partial", "Marco.Props.C42_full_false"], "note": "False: 4294967295 becomes unbounded (negation proved); proved below 2^31."},
 {"property": "C43", "status": "partial", "theorems": ["Marco.Props.C43_insert_partial", "Marco.Props.C43_between", "Marco.Props.C43_unterminated_silent", "Marco.Props.C43_insert_full_false", "Marco.Props.C43_unterminated_full_false"], "note": "False: a block comment beginning with /*/ ends there, an unterminated one is accepted (negations proved). Proved for all line comments and for block comments whose body does not begin with /."},
 {"property": "C44", "status": "partial", "theorems": ["Marco.Props.C44_integer_partial", "Marco.Props.C44_float_partial", "Marco.Props.C44_exponent_partial", "Marco.Props.C44_integer_full_false", "Marco.Props.C44_float_full_false", "Marco.Props.C44_exponent_full_false"], "note": "False when the literal is followed by a word beginning with e (12else, 1.5else) and for fractions from 10^18 on, whose normalizer overflows (negations proved); proved otherwise."},
 {"property": "C45", "status": "partial", "theorems": ["Marco.Props.C45_parallelize_false", "Marco.Props.C45_groups_partial", "Marco.Props.C45_parallelize_partial"], "note": "False as stated: a block reading two variables of one block counts it twice and is released once, so it is executed before all groups. Proved unconditionally for the groups that are created; proved in full when each writer is found through one read access only."},
 {"property": "C46", "status": "proved", "theorems": ["Marco.Props.C46_expr_meaning", "Marco.Props.C46_expr_eq", "Marco.Props.C46_expr", "Marco.Props.C46_equation", "Marco.Props.C46_guard"], "note": "Expression and equation paths."},
 {"property": "C47", "status": "proved", "theorems": ["Marco.Props.C47_explicit", "Marco.Props.C47_sound", "Marco.Props.C47_solution", "Marco.Props.C47_substitution"], "note": "Scalar operations over any field: nested inversions along a path, and grouping of several accesses. Calls through inverse annotations that are assumed to be right."},
 {"property": "C48", "status": "partial", "theorems": ["Marco.Props.C48_derivative_partial", "Marco.Props.C48_full_false", "Marco.Props.C48_full_false_pow", "Marco.Props.C48_full_false_zero"], "note": "False: the element-wise quotient creates a malformed denominator, the element-wise power needs a positive base even with constant exponent, x^0 at 0 (negations proved). Proved for the rest, all scalar operations and sums."},
 {"property": "C49", "status": "partial", "theorems": ["Marco.Props.C49_hash_partial", "Marco.Props.C49_hash_false"], "note": "False when a set stores overlapping ranges (negation proved); proved for disjoint stored ranges."},
 {"property": "C50", "status": "partial", "theorems": ["Marco.Props.C50_combine_false", "Marco.Props.C50_slices_partial", "Marco.Props.C20_combine_partial"], "note": "False as soon as the first function has a range access (negation proved); proved for affine functions, and for an affine first function and a second function with range accesses (slices)."},
 {"property": "C51", "status": "partial", "theorems": ["Marco.Props.C51_map_partial", "Marco.Props.C51_map_false"], "note": "False with dependent iteration spaces (missing return; negation proved); proved without dependencies."},
 {"property": "C52", "status": "partial", "theorems": ["Marco.Props.C52_printable_partial", "Marco.Props.C52_filter_rank", "Marco.Props.C52_full_false"], "note": "False for bounds outside of the array, which are not clamped (negation proved); proved otherwise."},
 {"property": "C53", "status": "proved", "theorems": ["Marco.Props.C53_containsPoint", "Marco.Props.C53_containsBox", "Marco.Props.C53_overlaps", "Marco.Props.C53_anyDimensionOverlaps", "Marco.Props.C53_intersect", "Marco.Props.C53_eq", "Marco.Props.C53_size", "Marco.Props.C53_ofPoint"], "note": "For equal ranks; contains(point) does not check the rank (C53_containsPoint_rank)."},
 {"property": "C54", "status": "partial", "theorems": ["Marco.Props.C54_full_false", "Marco.Props.C54_joined", "Marco.Props.C54_scalar_partial"], "note": "False: the first node of a cycle is not restricted by the last (negation proved); proved for systems of scalar equations."},
 {"property": "C55", "status": "partial", "theorems": ["Marco.Props.C55_powerChain_false", "Marco.Props.C55_looseOutputs_false", "Marco.Props.C55_exprSound_partial"], "note": "False: a ^ b ^ c and (a b) are accepted (negations proved); what is accepted derives from the Modelica grammar with three added constructs, with its tree."},
 {"property": "C56", "status": "partial", "theorems": ["Marco.Props.C56_elseIf_false", "Marco.Props.C56_dotSign_false", "Marco.Props.C56_globalRef_false", "Marco.Props.C56_omittedLast_false", "Marco.Props.C56_exprComplete_partial", "Marco.Props.C56_unique"], "note": "False: elseif, .+ and .- signs, global references and omitted last outputs are not read (negations proved); proved for the rest of the grammar, with uniqueness of the tree."},
 {"property": "C57", "status": "partial", "theorems": ["Marco.Props.C57_missingOperand_false", "Marco.Props.C57_endOfFile_false", "Marco.Props.C57_terminates_partial", "Marco.Props.C57_bound"], "note": "False: a missing operand is a null pointer that is dereferenced (negation proved); termination is proved for every list of tokens."},
 {"property": "C58", "status": "partial", "theorems": ["Marco.Props.C58_chain_false", "Marco.Props.C58_value", "Marco.Props.C58_operationLowering_partial"], "note": "False: `a and b and c` loses c (negation proved); proved for every accepted expression without chains of and/or."},
 {"property": "C59", "status": "partial", "theorems": ["Marco.Props.C59_step_false", "Marco.Props.C59_nested_false", "Marco.Props.C59_undeclared_false", "Marco.Props.C59_limit_false", "Marco.Props.C59_forStatements_partial", "Marco.Props.C59_deterministic"], "note": "False: step and last value are swapped, several indices give consecutive loops, the limit is evaluated at each iteration (negations proved); proved if every for has one index, no step and a limit the body does not change."},
 {"property": "C60", "status": "proved", "theorems": ["Marco.Props.C60_statements", "Marco.Props.C60_reported"], "note": ""},
 {"property": "C61", "status": "partial", "theorems": ["Marco.Props.C61_index_false", "Marco.Props.C61_hidden_false", "Marco.Props.C61_range_false", "Marco.Props.C61_array_false", "Marco.Props.C61_ragged_false", "Marco.Props.C61_arrayConstructors_partial", "Marco.Props.C61_scope_partial"], "note": "False: iteration variables are not defined, ranges have to be 1:n, array variables are taken as scalars, ragged arrays may be accepted (negations proved); proved for the other constructors."},
 {"property": "C62", "status": "partial", "theorems": ["Marco.Props.C62_mixed_false", "Marco.Props.C62_first_false", "Marco.Props.C62_vectorizedCalls_partial", "Marco.Props.C62_unique"], "note": "False: scalars and arrays cannot be mixed, the rank of the first argument is not checked (negations proved); proved for the other calls."},
 {"property": "C63", "status": "partial", "theorems": ["Marco.Props.C63_rectangular_false", "Marco.Props.C63_conflict_false", "Marco.Props.C63_vectorizationLoops_partial", "Marco.Props.C63_results"], "note": "False: the size of the first dimension is taken for all of them (negations proved); proved if the additional dimensions of the first argument are the same."},
 {"property": "C64", "status": "partial", "theorems": ["Marco.Props.C64_left_false", "Marco.Props.C64_stuck_false", "Marco.Props.C64_break_false", "Marco.Props.C64_controlFlow_partial", "Marco.Props.C64_values", "Marco.Props.C64_source_partial"], "note": "False: the then region of an if with an else is never converted (negations proved); proved if these regions contain no structured operation, also from the source with C59. For all functions: whoever reaches the exit block has the right values."},
 {"property": "C65", "status": "partial", "theorems": ["Marco.Props.C65_order_false", "Marco.Props.C65_sum_false", "Marco.Props.C65_cast_false", "Marco.Props.C65_cast_real_false", "Marco.Props.C65_overflow_false", "Marco.Props.C65_nan_false", "Marco.Props.C65_absorb_false", "Marco.Props.C65_quotient_false", "Marco.Props.C65_full_false", "Marco.Props.C65_binary_partial", "Marco.Props.C65_unary_partial", "Marco.Props.C65_undefined_partial"], "note": "False: Boolean order and sums, casts to Boolean, overflow, NaN, zero times infinity, large quotients (negations proved). Proved for all other constants, with the cases left out listed in Agree1 and Agree2. Arrays and the index type are left out."},
 {"property": "C66", "status": "partial", "theorems": ["Marco.Props.C66_empty_false", "Marco.Props.C66_negative_false", "Marco.Props.C66_agree_false", "Marco.Props.C66_full_false", "Marco.Props.C66_integers_partial", "Marco.Props.C66_reals_partial", "Marco.Props.C66_shift_partial", "Marco.Props.C66_ordered", "Marco.Props.C66_constants", "Marco.Props.C66_zero"], "note": "False for empty ranges (negations proved). For integers it is characterised when the size is right; for reals proved for ranges that are not empty and exact arithmetic; shifts proved for integers."},
 {"property": "C67", "status": "partial", "theorems": ["Marco.Props.C67_mod_false", "Marco.Props.C67_rem_false", "Marco.Props.C67_power_false", "Marco.Props.C67_full_false", "Marco.Props.C67_unary", "Marco.Props.C67_binary_partial"], "note": "False for large integers, rem of the smallest integer, negative powers (negations proved). One operand: proved. Two operands: proved for integers of limited size, and rem, max, min of reals; not div and mod of reals, nor powers that are not integers."},
 {"property": "C68", "status": "partial", "theorems": ["Marco.Props.C68_matching_false", "Marco.Props.C68_equations_partial", "Marco.Props.C68_matching_partial", "Marco.Props.C68_overlap_partial"], "note": "False (negation proved): pieces matched with nothing. The equations are kept; it is characterised when the matching is right."},
 {"property": "C69", "status": "partial", "theorems": ["Marco.Props.C69_matching_false", "Marco.Props.C69_equations_partial", "Marco.Props.C69_matching_partial"], "note": "False (negation proved): pieces matched with elements of other pieces. The equations are kept; it is characterised when the matching is right."},
 {"property": "C70", "status": "partial", "theorems": ["Marco.Props.C70_matching_false", "Marco.Props.C70_equations_partial", "Marco.Props.C70_matching_partial"], "note": "False (negation proved): equations matched with nothing. The equations are kept; the matching is proved when one range is stored, the eliminated inductions are the last ones and the write accesses agree."},
 {"property": "C71", "status": "partial", "theorems": ["Marco.Props.C71_downwards_false", "Marco.Props.C71_empty_false", "Marco.Props.C71_full_false", "Marco.Props.C71_equations_partial", "Marco.Props.C71_ranges_partial", "Marco.Props.C71_binding", "Marco.Props.C71_mismatch"], "note": "False for steps that are negative and for ranges without values (negations proved). Proved for ranges with positive steps, the ranges admitted if none is empty."},
 {"property": "C72", "status": "partial", "theorems": ["Marco.Props.C72_states_false", "Marco.Props.C72_full_false", "Marco.Props.C72_constant_partial", "Marco.Props.C72_complete"], "note": "False when an access overlaps the written elements only partly (negation proved). Proved when each access lies wholly within or outside."},
 {"property": "C73", "status": "partial", "theorems": ["Marco.Props.C73_initialised_false", "Marco.Props.C73_element_false", "Marco.Props.C73_full_false", "Marco.Props.C73_partial", "Marco.Props.C73_others", "Marco.Props.C73_stays"], "note": "False for equations covered by initial ones and for elements without inductions (negations proved). Proved for the variables whose equations can be moved; characterised which equations stay."},
 {"property": "C74", "status": "partial", "theorems": ["Marco.Props.C74_start_false", "Marco.Props.C74_unmatched_false", "Marco.Props.C74_full_false", "Marco.Props.C74_needed", "Marco.Props.C74_closed_partial", "Marco.Props.C74_noOutputs"], "note": "The variables kept are characterised. Start attributes may refer to removed variables (negation proved); proved if they read needed variables only."},
 {"property": "C75", "status": "partial", "theorems": ["Marco.Props.C75_full_false", "Marco.Props.C75_division_false", "Marco.Props.C75_transformation_partial", "Marco.Props.C75_complete", "Marco.Props.C75_refuses"], "note": "The chosen iteration need not write the element, as constant subscripts are dropped (negation proved). Proved: if some iteration writes it, it is the one chosen; and it is found for accesses made of constants and offsets."},
 {"property": "C76", "status": "partial", "theorems": ["Marco.Props.C76_restore_false", "Marco.Props.C76_remaining_false", "Marco.Props.C76_full_false", "Marco.Props.C76_replace_partial", "Marco.Props.C76_cycle_partial", "Marco.Props.C76_solutions_partial"], "note": "The solutions are kept, for cycles in which the first equation is not found again. False: that the SCC is restored when a cycle can't be solved, and that no cycle is left otherwise (negations proved)."},
 {"property": "C77", "status": "partial", "theorems": ["Marco.Props.C77_full_false", "Marco.Props.C77_named_false", "Marco.Props.C77_region_false", "Marco.Props.C77_prologue_false", "Marco.Props.C77_creation_false", "Marco.Props.C77_creation_region_false", "Marco.Props.C77_calls_partial", "Marco.Props.C77_calls_crash", "Marco.Props.C77_prologue_partial", "Marco.Props.C77_prologue_crash", "Marco.Props.C77_creation_partial", "Marco.Props.C77_creation_crash"], "note": "False as a whole (negations proved): a null pointer is dereferenced when the default value or the dimension of a variable reads a variable that is not in the graph, such as an input variable; names are ignored when all arguments are given; variables read inside regions become those of the caller. Proved in the other cases, for every order of the addresses, with the exact condition for the null pointer."},
 {"property": "C78", "status": "partial", "theorems": ["Marco.Props.C78_full_false", "Marco.Props.C78_cashKarp_false", "Marco.Props.C78_cashKarp_wrong", "Marco.Props.C78_cashKarp_partial", "Marco.Props.C78_orders_partial", "Marco.Props.C78_genericMidPoint", "Marco.Props.C78_secondOrder", "Marco.Props.C78_lowerOrder", "Marco.Props.C78_polynomial_partial", "Marco.Props.C78_linear_partial"], "note": "False for the method of Cash and Karp, two coefficients of which are wrong (negation proved, also that `x' = 1` is integrated wrongly for every step size, and that the method is right with the two coefficients corrected). Proved for all other methods, as rational numbers: the rounding of the coefficients to doubles is not modelled."},
 {"property": "C79", "status": "partial", "theorems": ["Marco.Props.C79_full_false", "Marco.Props.C79_coupled_wrong", "Marco.Props.C79_algebraic_wrong", "Marco.Props.C79_array_wrong", "Marco.Props.C79_exists_full_false", "Marco.Props.C79_time_false", "Marco.Props.C79_names_false", "Marco.Props.C79_chain_false", "Marco.Props.C79_once_false", "Marco.Props.C79_step_partial", "Marco.Props.C79_exists_partial"], "note": "False as a whole (negations proved): inside the functions for the slopes the other states have their next values and the algebraic variables their old values, so that coupled systems are integrated wrongly in every order; equations with the time give invalid IR. Proved for systems in which each derivative depends on its own state and on parameters only, for all tableaus and all orders."},
 {"property": "C80", "status": "partial", "theorems": ["Marco.Props.C80_estimate_full_false", "Marco.Props.C80_estimate_reached", "Marco.Props.C80_nonState_full_false", "Marco.Props.C80_errors", "Marco.Props.C80_difference", "Marco.Props.C80_estimate_partial", "Marco.Props.C80_accept", "Marco.Props.C80_nonState_partial"], "note": "The estimate ignores negative errors, and a model without states has no schedule for its equations (negations proved). Proved: the errors are the differences of the solutions (where C79 holds), the exact value of the estimate, the acceptance, and the schedule for models with states."},
 {"property": "C81", "status": "partial", "theorems": ["Marco.Props.C81_full_false", "Marco.Props.C81_chain_wrong", "Marco.Props.C81_exists", "Marco.Props.C81_result", "Marco.Props.C81_step_partial", "Marco.Props.C81_sequential"], "note": "False as a whole (negation proved): if a derivative is itself a state, as after the reduction of the index, the grouping puts its update before the update of the state, in every execution. Proved without such chains, for all groupings and orders; proved for chains if the blocks are executed in the order of their creation."},
 {"property": "C82", "status": "partial", "theorems": ["Marco.Props.C82_full_false", "Marco.Props.C82_extract_wrong", "Marco.Props.C82_views_wrong", "Marco.Props.C82_views_partial", "Marco.Props.C82_extract_partial", "Marco.Props.C82_source"], "note": "False as a whole (negation proved): subscripts are concatenated also if an inner view has a range, so that the later subscripts belong to other dimensions. Proved if the inner views have scalar subscripts only."},
 {"property": "C83", "status": "partial", "theorems": ["Marco.Props.C83_full_false", "Marco.Props.C83_view_never", "Marco.Props.C83_view_undefined", "Marco.Props.C83_extract_partial", "Marco.Props.C83_step", "Marco.Props.C83_unique"], "note": "Proved for extractions, through any number of views. The pattern for views never applies to a valid view with a subscript, and is undefined for one without (proved)."},
 {"property": "C84", "status": "partial", "theorems": ["Marco.Props.C84_full_false", "Marco.Props.C84_insert_wrong", "Marco.Props.C84_insert_result", "Marco.Props.C84_infer_partial", "Marco.Props.C84_view_partial", "Marco.Props.C84_insert_partial", "Marco.Props.C84_size"], "note": "Proved for the inference and for views in full, for insertions without negative steps. With a negative step the slice of an insertion starts at the end of the range and goes further down (proved, negation of the full claim)."},
 {"property": "C85", "status": "partial", "theorems": ["Marco.Props.C85_full_false", "Marco.Props.C85_reduction_fails", "Marco.Props.C85_reduction_missing", "Marco.Props.C85_scalar_fails", "Marco.Props.C85_algorithm_whole", "Marco.Props.C85_result_partial", "Marco.Props.C85_exists_partial"], "note": "False as a whole (negation proved): derivatives in reductions are not collected, those of scalars in algorithms lead to a failing assertion, those of array elements in algorithms mark the whole array. Proved: whenever the pass succeeds the variables and the replacement are right; without derivatives in regions and algorithms it succeeds and the derived indices are exact."},
 {"property": "C86", "status": "partial", "theorems": ["Marco.Props.C86_full_false", "Marco.Props.C86_reduction_zero", "Marco.Props.C86_algorithm_none", "Marco.Props.C86_pass", "Marco.Props.C86_both_partial"], "note": "The pass alone is proved right with respect to the recorded indices. Through the materialization it is false (negation proved); proved without derivatives in regions and algorithms."},
 {"property": "C87", "status": "partial", "theorems": ["Marco.Props.C87_full_false", "Marco.Props.C87_inductions_wrong", "Marco.Props.C87_ranges_fail", "Marco.Props.C87_reduction_fails", "Marco.Props.C87_reduction_wrong", "Marco.Props.C87_result_wrong", "Marco.Props.C87_calls_partial"], "note": "False as a whole (negation proved, five witnesses): the pairing of inductions is not checked to be a function, arguments of reductions and results of calls are not compared, calls in reductions are cloned out of their region, templates with several ranges have their calls replaced more than once. Proved for templates without these."},
 {"property": "C88", "status": "proved", "theorems": ["Marco.Props.C88_replaced"], "note": ""},
 {"property": "C89", "status": "partial", "theorems": ["Marco.Props.C89_full_false", "Marco.Props.C89_full_false_left", "Marco.Props.C89_array_loops", "Marco.Props.C89_never_ends", "Marco.Props.C89_read_left", "Marco.Props.C89_values_partial", "Marco.Props.C89_ends_partial", "Marco.Props.C89_partial"], "note": "False as a whole (negation proved): a binding equation reading its own variable makes the loop endless, and reads are left when a binding equation is copied before its own reads are replaced. Values are kept in all cases; ends without self-reads; complete if the declarations are in topological order."},
 {"property": "C90", "status": "partial", "theorems": ["Marco.Props.C90_full_false", "Marco.Props.C90_full_false_reader", "Marco.Props.C90_full_false_reversed", "Marco.Props.C90_cycle", "Marco.Props.C90_complete_partial", "Marco.Props.C90_reads_partial", "Marco.Props.C90_start_scc_partial", "Marco.Props.C90_start_start_partial", "Marco.Props.C90_writes_partial", "Marco.Props.C90_warned_partial", "Marco.Props.C90_partial", "Marco.Props.C90_reversed"], "note": "False as a whole (negation proved): the order between start equations follows the file and not what they read, an SCC reading the variable of a start equation may come first, and without SCCs the order is reversed. The exact order is proved for all models, and the property for those where these cases do not occur."},
 {"property": "C91", "status": "partial", "theorems": ["Marco.Props.C91_full_false", "Marco.Props.C91_defined_partial", "Marco.Props.C91_starts_partial", "Marco.Props.C91_count_partial", "Marco.Props.C91_changes_partial", "Marco.Props.C91_valid_partial", "Marco.Props.C91_partial", "Marco.Props.C91_inserted_partial"], "note": "False as a whole (negation proved): a variable that only a start value depends on is not declared in the function. Proved if the start values depend on variables that the algorithm reads; the validity of the function is characterized exactly."},
 {"property": "C92", "status": "partial", "theorems": ["Marco.Props.C92_full_false", "Marco.Props.C92_full_false_both", "Marco.Props.C92_full_false_zero", "Marco.Props.C92_defined_partial", "Marco.Props.C92_kept_partial", "Marco.Props.C92_dynamic_partial", "Marco.Props.C92_initial_partial", "Marco.Props.C92_valid_partial", "Marco.Props.C92_guesses_partial", "Marco.Props.C92_partial", "Marco.Props.C92_rank", "Marco.Props.C92_rank_binding", "Marco.Props.C92_each"], "note": "False as a whole (negation proved by three witnesses on the default and the use of fixed). For all well-formed models the solutions of the equations, initial equations and start equations are characterized exactly; the claim holds where the attributes are written and do not compete with a binding equation."},
 {"property": "C93", "status": "partial", "theorems": ["Marco.Props.C93_capture", "Marco.Props.C93_full_false", "Marco.Props.C93_full_false_element", "Marco.Props.C93_full_false_region", "Marco.Props.C93_full_false_return", "Marco.Props.C93_full_false_output", "Marco.Props.C93_full_false_nullary", "Marco.Props.C93_full_false_named", "Marco.Props.C93_chosen", "Marco.Props.C93_partial"], "note": "False as a whole (negation proved by seven witnesses). Proved for functions with inputs whose default values are constant and belong to inputs, without assignments to elements, regions that read variables and return, called without names."},
 {"property": "C94", "status": "partial", "theorems": ["Marco.Props.C94_full_false", "Marco.Props.C94_view_false", "Marco.Props.C94_view_false_alarm", "Marco.Props.C94_insert_false", "Marco.Props.C94_insert_false_scalar", "Marco.Props.C94_insert_false_unbounded", "Marco.Props.C94_indexed_ub", "Marco.Props.C94_indexed_partial", "Marco.Props.C94_dimension_partial", "Marco.Props.C94_divEW_partial", "Marco.Props.C94_domain_partial", "Marco.Props.C94_view_partial", "Marco.Props.C94_view_scalar_partial", "Marco.Props.C94_view_exact_partial", "Marco.Props.C94_insert_partial"], "note": "False as a whole (negation proved, six witnesses). Proved: exact for accesses with all the indices, for dimensions, divisions and domains, for views without bounded ranges; views with ranges are never stopped wrongly (non-zero steps, ranges or dimensions not empty); insertions without unbounded ranges are stopped exactly when the shapes do not fit. Missing: the bounds of ranges in views, all bounds in insertions."},
 {"property": "C95", "status": "partial", "theorems": ["Marco.Props.C95_full_false", "Marco.Props.C95_full_false_ranges", "Marco.Props.C95_indices", "Marco.Props.C95_backward", "Marco.Props.C95_independent", "Marco.Props.C95_scalar", "Marco.Props.C95_mismatch", "Marco.Props.C95_partial"], "note": "False as a whole (negation proved: loops that run backward are shifted by one for every box, C95_backward; several ranges are called in the order of the index set). Proved for dimensions that run forward, if no range needs what a later range assigns, and for independent indices."},
 {"property": "C96", "status": "partial", "theorems": ["Marco.Props.C96_full_false", "Marco.Props.C96_product_false", "Marco.Props.C96_scalar_false", "Marco.Props.C96_subEW_false", "Marco.Props.C96_right_false", "Marco.Props.C96_div_false", "Marco.Props.C96_size_false", "Marco.Props.C96_pow_false", "Marco.Props.C96_commute_scalar_false", "Marco.Props.C96_commute_matrix_false", "Marco.Props.C96_pow_exact", "Marco.Props.C96_sizes", "Marco.Props.C96_tensors_partial", "Marco.Props.C96_arrays_partial", "Marco.Props.C96_divEW_partial", "Marco.Props.C96_scalar_partial", "Marco.Props.C96_subEW_partial", "Marco.Props.C96_product_partial", "Marco.Props.C96_product_zero_partial", "Marco.Props.C96_transpose_partial", "Marco.Props.C96_pow_partial", "Marco.Props.C96_commute_partial"], "note": "False as a whole (negation proved). Proved for two arrays (sum, difference, element-wise product of any types, quotient with a real among them) and for a scalar and an array where no cast is missing; what the products and the power give is proved exactly: the product plus what the memory contained, a matrix of ones times the power."},
 {"property": "C97", "status": "partial", "theorems": ["Marco.Props.C97_full_false", "Marco.Props.C97_zero_false", "Marco.Props.C97_matrix_false", "Marco.Props.C97_type_false", "Marco.Props.C97_div_type_false", "Marco.Props.C97_mulEW_false", "Marco.Props.C97_neg_partial", "Marco.Props.C97_div_partial", "Marco.Props.C97_div_type_partial", "Marco.Props.C97_factor_partial", "Marco.Props.C97_mul_partial", "Marco.Props.C97_elementwise_partial", "Marco.Props.C97_rank"], "note": "False as a whole (negation proved). Proved for negations (all arrays, types too); for quotients (the value, for all arrays; the type, for numbers); for products if the factor that is distributed is a number other than zero, and for numbers if no quotient has an operation as divisor only."},
 {"property": "C98", "status": "partial", "theorems": ["Marco.Props.C98_full_false", "Marco.Props.C98_default_false", "Marco.Props.C98_names_false", "Marco.Props.C98_template_partial", "Marco.Props.C98_first_partial", "Marco.Props.C98_second_partial"], "note": "False as a whole (negation proved). Proved for first and second derivatives if the independent variables are declared before all the variables that are not inputs and no variable has a default value, where the rules for the expressions are right (C48); for the template function also along any curve of arguments."},
 {"property": "C99", "status": "partial", "theorems": ["Marco.Props.C99_least", "Marco.Props.C99_order", "Marco.Props.C99_internal", "Marco.Props.C99_partition", "Marco.Props.C99_square_partial", "Marco.Props.C99_chain_false", "Marco.Props.C99_chain_reduced_false", "Marco.Props.C99_full_false"], "note": "The choice of variables and equations is proved to be the least closed one and the partition exact, for all models. That the system is square and has the states of the model is false with derivatives of derivatives (negation proved), and proved if no derivative is a state."},
 {"property": "C100", "status": "partial", "theorems": ["Marco.Props.C100_jacobian_partial", "Marco.Props.C100_template", "Marco.Props.C100_created", "Marco.Props.C100_capture_false", "Marco.Props.C100_full_false"], "note": "The value of the Jacobian functions is proved for all models and equations whose operations are supported by the differentiation (C48), if no parameter has the name of a local variable of the function differentiated. Without that it is false (negation proved)."},
 {"property": "C101", "status": "partial", "theorems": ["Marco.Props.C101_replace_partial", "Marco.Props.C101_terminates", "Marco.Props.C101_full_false"], "note": "Proved if the subscripts of the written accesses are constants and offsets of induction variables, each occurring once. Without that it is false (negation proved): an equation is dropped."},
 {"property": "C102", "status": "partial", "theorems": ["Marco.Props.C102_reads_partial", "Marco.Props.C102_exact_partial", "Marco.Props.C102_full_false", "Marco.Props.C102_reals_missed", "Marco.Props.C102_view_missed", "Marco.Props.C102_two_undefined", "Marco.Props.C102_three_missed"], "note": "Proved for subscripts that are arithmetic without ranges and quotients, and reductions with one iterable, a constant range of integers with step one (the exactness without reductions). Otherwise false (negations proved): the last element of a range subscript and of an iterable of reals is missed, subscripts of a slice are appended to those of the slice, and several iterables of a reduction are mixed up or undefined."},
 {"property": "C103", "status": "partial", "theorems": ["Marco.Props.C103_distinct", "Marco.Props.C103_path_partial", "Marco.Props.C103_several_partial", "Marco.Props.C103_full_false", "Marco.Props.C103_sum_wrong", "Marco.Props.C103_cast_wrong"], "note": "The paths are distinct for all equations. That they lead to the access is proved without reductions and if only variables are subscripted; otherwise it is false (negations proved): within a reduction no access is found, and subscriptions of other values add nothing to the path."},
 {"property": "C104", "status": "partial", "theorems": ["Marco.Props.C104_ida_partial", "Marco.Props.C104_kinsol_partial", "Marco.Props.C104_operations_partial", "Marco.Props.C104_rounding_wrong", "Marco.Props.C104_reduction_missed", "Marco.Props.C104_full_false", "Marco.Props.C104_kinsol_undefined"], "note": "Proved for arithmetic subscripts and reductions with one constant range (as C102); for IDA a scalar equation must not have a generic access, for KINSOL all accesses must be affine (else undefined). Otherwise false: negations proved."},
 {"property": "C105", "status": "partial", "theorems": ["Marco.Props.C105_set_partial", "Marco.Props.C105_variable_partial", "Marco.Props.C105_sets_partial", "Marco.Props.C105_variables_partial", "Marco.Props.C105_sets_text_partial", "Marco.Props.C105_variables_text_partial", "Marco.Props.C105_schedules", "Marco.Props.C105_full_false", "Marco.Props.C105_scalar_wrong", "Marco.Props.C105_unnamed_wrong", "Marco.Props.C105_emptied_wrong"], "note": "Proved for single sets and named variables in all three forms, for lists in the attribute and bytecode forms, for lists of directions in all forms. The text of a list is read back if the elements without indices come first and the others have the same rank; otherwise it is false (negation proved). Undefined behaviour is left possible only if ranges of a set can be merged (C07)."},
 {"property": "C106", "status": "partial", "theorems": ["Marco.Props.C106_inverse_partial", "Marco.Props.C106_inverse_full_false", "Marco.Props.C106_indices", "Marco.Props.C106_equal", "Marco.Props.C106_hash_wrong", "Marco.Props.C106_roundtrip", "Marco.Props.C106_text_partial", "Marco.Props.C106_text_full_false", "Marco.Props.C106_order_wrong"], "note": "Indices, equality, attribute and bytecode are proved for all histories and maps. The two directions are inverse if no variable is given two derivatives (otherwise false, negation proved); texts are read back if the parts of the map agree (otherwise false, negation proved)."},
 {"property": "C107", "status": "partial", "theorems": ["Marco.Props.C107_calls", "Marco.Props.C107_variables", "Marco.Props.C107_single_partial", "Marco.Props.C107_single_full_false", "Marco.Props.C107_compare_wrong"], "note": "Calls, schedulers and accesses are proved for all modules and schedules. The last clause is proved for elements of arrays; for scalar equations it is false (negation proved)."},
 {"property": "C108", "status": "partial", "theorems": ["Marco.Props.C108_matching_partial", "Marco.Props.C108_model_partial", "Marco.Props.C108_scalar_partial", "Marco.Props.C108_instances", "Marco.Props.C108_full_false", "Marco.Props.C108_empty_wrong"], "note": "Proved for models with at least one equation, if the algorithm gives perfect matchings; for scalar models this is proved of the algorithm itself (C30). Without equations the numbers are not compared (negation proved)."},
 {"property": "C109", "status": "partial", "theorems": ["Marco.Props.C109_unmatched", "Marco.Props.C109_accesses_partial", "Marco.Props.C109_scalar_variable_partial", "Marco.Props.C109_scalar_equation_partial", "Marco.Props.C109_one_access_partial", "Marco.Props.C109_no_write", "Marco.Props.C109_read_lost", "Marco.Props.C109_full_false", "Marco.Props.C109_second_false"], "note": "False in general (two witnesses, one of them a model with a single perfect matching). Proved: exactly when it holds; and that it holds for scalar variables, scalar equations, and variables accessed in one way, for all perfect matchings."},
 {"property": "C110", "status": "partial", "theorems": ["Marco.Props.C110_detection_partial", "Marco.Props.C110_scalar_partial", "Marco.Props.C110_ready", "Marco.Props.C110_pipeline_partial", "Marco.Props.C110_scalar_pipeline_partial", "Marco.Props.C110_clone_wrong", "Marco.Props.C110_full_false"], "note": "False in general (the search gives a scalar equation twice, C37). Proved: it holds whenever the assertion on the cycles holds; composed with the matching pass; and, for models of scalar equations, without assumptions on the search and on the accesses. That the assertion holds for array equations is not proved (it does not in general)."},
 {"property": "C111", "status": "partial", "theorems": ["Marco.Props.C111_describes_partial", "Marco.Props.C111_made", "Marco.Props.C111_single_partial", "Marco.Props.C111_reserved_wrong", "Marco.Props.C111_three_ub", "Marco.Props.C111_full_false"], "note": "False in general (reserved variables are counted in the numbers of the derivatives; with three ranges the compiler reads destroyed operands). Proved: whenever no reserved variable stands before a derivative and the program is made; it is made when the user asks for at most one piece of each variable."},
 {"property": "C112", "status": "partial", "theorems": ["Marco.Props.C112_keeps_partial", "Marco.Props.C112_restrict", "Marco.Props.C112_induction_fails", "Marco.Props.C112_order_matters", "Marco.Props.C112_full_false"], "note": "False in general: an equation with an operation on an induction variable, even in a subscript, is not differentiated (null template). Proved: whenever the differentiation succeeds and C48 supports the derivatives, with the requests as made for visited vertices."},
 {"property": "C113", "status": "partial", "theorems": ["Marco.Props.C113_calls_partial", "Marco.Props.C113_names_partial", "Marco.Props.C113_runtime_partial", "Marco.Props.C113_inverse_fails", "Marco.Props.C113_runtime_clash", "Marco.Props.C113_class_clash", "Marco.Props.C113_inverse_dropped", "Marco.Props.C113_full_false"], "note": "False in general: the names in the inverse annotations are not mangled (no inverse call ever leads to a function), the annotations of nested functions are dropped, and user names can clash with runtime functions or with classes beginning with _M. Proved: all calls keep their callee, the names are distinct."},
 {"property": "C114", "status": "partial", "theorems": ["Marco.Props.C114_set_partial", "Marco.Props.C114_deep_partial", "Marco.Props.C114_record_partial", "Marco.Props.C114_values", "Marco.Props.C114_record_results", "Marco.Props.C114_results_partial", "Marco.Props.C114_get_partial", "Marco.Props.C114_nested_get_fails", "Marco.Props.C114_nested_set_fails", "Marco.Props.C114_array_set_fails", "Marco.Props.C114_deep_wrong", "Marco.Props.C114_deeper_undefined", "Marco.Props.C114_results_wrong", "Marco.Props.C114_full_false"], "note": "False in general: nested records are not read and not assigned, arrays of records are not assigned, results after a record are permuted, subscripts in paths of more than two components are misplaced. Proved: one level with any subscripts, any depth without arrays, flat records, results before any record."},
 {"property": "C115", "status": "partial", "theorems": ["Marco.Props.C115_elements_partial", "Marco.Props.C115_empty_undefined", "Marco.Props.C115_fill", "Marco.Props.C115_copy", "Marco.Props.C115_view_partial", "Marco.Props.C115_row_undefined", "Marco.Props.C115_fixed_undefined", "Marco.Props.C115_merge_partial", "Marco.Props.C115_merge_fails", "Marco.Props.C115_access", "Marco.Props.C115_full_false"], "note": "False in general: empty arrays read outside of the values, views are cast to a type with offset 0, an index with a constant range fails an assertion, subscriptions of slices are merged wrongly. Proved: fill, copy and access merging in full; arrays without empty dimensions, views whose cast is folded away, merging after subscriptions without ranges."},
 {"property": "C116", "status": "partial", "theorems": ["Marco.Props.C116_reads_partial", "Marco.Props.C116_column", "Marco.Props.C116_middle", "Marco.Props.C116_full_false"], "note": "False in general: fewer subscripts than the rank on the last component are used for its last dimensions, and subscripts of a component in the middle are used for the dimensions of the components before it. Proved for all other references."},
 {"property": "C117", "status": "partial", "theorems": ["Marco.Props.C117_arguments_partial", "Marco.Props.C117_casts", "Marco.Props.C117_count", "Marco.Props.C117_mismatch", "Marco.Props.C117_indices", "Marco.Props.C117_condition", "Marco.Props.C117_names_lost", "Marco.Props.C117_record_partial", "Marco.Props.C117_record_undefined", "Marco.Props.C117_record_mixed_undefined", "Marco.Props.C117_named", "Marco.Props.C117_default", "Marco.Props.C117_full_false"], "note": "False in general: named arguments are passed in the order of the call, and calls that leave out a parameter with a default value are refused. Proved for all calls with one argument for each parameter, in the order of the declarations."},
 {"property": "C118", "status": "partial", "theorems": ["Marco.Props.C118_call_partial", "Marco.Props.C118_cells", "Marco.Props.C118_truncated", "Marco.Props.C118_slice", "Marco.Props.C118_slice_received", "Marco.Props.C118_boolean", "Marco.Props.C118_language", "Marco.Props.C118_declared", "Marco.Props.C118_full_false"], "note": "False in general: Integers beyond the width of int, slices of arrays of Reals, and Booleans for which the function returns a value other than 0 and 1. Proved for all other calls whose arrays are in different buffers."},
 {"property": "C119", "status": "partial", "theorems": ["Marco.Props.C119_call_partial", "Marco.Props.C119_element", "Marco.Props.C119_declared", "Marco.Props.C119_implicit", "Marco.Props.C119_outputs", "Marco.Props.C119_full_false"], "note": "False in general: what the function writes to an element of an array is lost. Proved for all other calls in which no variable is passed twice."},
 {"property": "C120", "status": "partial", "theorems": ["Marco.Props.C120_run_partial", "Marco.Props.C120_live", "Marco.Props.C120_outside", "Marco.Props.C120_create_partial", "Marco.Props.C120_verify", "Marco.Props.C120_dynamic", "Marco.Props.C120_expression", "Marco.Props.C120_mixed", "Marco.Props.C120_released", "Marco.Props.C120_overwritten", "Marco.Props.C120_full_false"], "note": "False in general: arrays with a dimension given by an expression, and arrays used after an assignment to the variable from which they have been read. Proved for all other declarations and sequences of operations."},
 {"property": "C121", "status": "partial", "theorems": ["Marco.Props.C121_decls_partial", "Marco.Props.C121_marco", "Marco.Props.C121_reads", "Marco.Props.C121_modification", "Marco.Props.C121_assign", "Marco.Props.C121_injective", "Marco.Props.C121_number_first", "Marco.Props.C121_redeclare", "Marco.Props.C121_replaceable", "Marco.Props.C121_after_name", "Marco.Props.C121_full_false"], "note": "False in general: a dimension that begins with a number and goes on (Real[2 * n] x) is refused. Proved for all sections without such dimensions. Redeclarations reach llvm_unreachable."},
 {"property": "C122", "status": "partial", "theorems": ["Marco.Props.C122_section_partial", "Marco.Props.C122_marco", "Marco.Props.C122_reads", "Marco.Props.C122_when", "Marco.Props.C122_when_if", "Marco.Props.C122_injective", "Marco.Props.C122_full_false"], "note": "False in general: each when equation is refused, because end if is expected at its end. Proved for all sections without when."},
 {"property": "C123", "status": "partial", "theorems": ["Marco.Props.C123_section_partial", "Marco.Props.C123_marco", "Marco.Props.C123_reads", "Marco.Props.C123_injective", "Marco.Props.C123_when", "Marco.Props.C123_when_loop", "Marco.Props.C123_empty_call", "Marco.Props.C123_marco_empty_call", "Marco.Props.C123_initial", "Marco.Props.C123_full_false"], "note": "False in general: when statements are refused, a call without arguments as a statement uses a null pointer, and a section before initial equation is refused. Proved for all other sections."}
]}
