#!/usr/bin/env python3
"""Writes MANIFEST.json. One entry per property: (status, theorem names, note)."""
import json, os
N = "Marco.Props."
C = {}
def c(pid, status, thms, note=""):
    C[pid] = dict(property=pid, status=status,
                  theorems=[t if "." in t else N + t for t in thms], note=note)

c("C01", "proved", ["C01_iteration", "C01_emits_unique"])
c("C02", "proved", ["C02_containsInt", "C02_containsRange", "C02_overlaps", "C02_intersect",
                    "C02_canBeMerged", "C02_merge", "C02_subtract"])
c("C03", "proved", ["C03_subtract_partition", "C03_subtract_covered", "C03_subtract_disjoint"])
c("C04", "proved", ["C04_merge_exact", "C04_merge_complete"])
c("C05", "proved", ["C05_range", "C05_range_compare", "C05_point", "C05_box", "C05_box_gt"])
c("C06", "partial", ["C06_eqPoint_partial", "C06_eqPoint_false"],
  "False of the code: Range::operator!=(data_type) uses && so [5,7) == 5; negation proved.")

c("C07", "partial", ["C07_exact_partial", "C07_history_partial", "C07_apart_partial", "C07_points_partial",
  "C07_history_false"],
  "Whenever a history is executed without undefined behaviour the result is exact. The absence of undefined "
  "behaviour is false in general (26 insertions of rank 2 use a destroyed node); it is proved for any number "
  "of boxes that cannot be merged and for any sixteen points.")
c("C08", "partial", ["C08_each_once", "C08_history_partial", "C08_apart_partial", "C08_points_partial",
  "C08_history_false"],
  "As for C07: everything holds of the histories executed without undefined behaviour.")
c("C09", "partial", ["C09_fromRanges_partial", "C09_disjoint_false"],
  "Points exact for every list. Disjointness and size are false for overlapping boxes (setFromRanges "
  "stops at the first range overlapping in no dimension): negation proved; they hold for disjoint boxes "
  "and for points.")
c("C10", "partial", ["C10_containsPoint", "C10_containsBox", "C10_overlapsBox", "C10_overlapsSet",
                     "C10_containsSet_partial", "C10_containsSet_sound", "C10_containsSet_false"],
  "contains(set) compares sizes first, wrong when the argument stores overlapping ranges (negation "
  "proved); the other queries are proved in full.")
c("C11", "partial", ["C11_intersectBox", "C11_intersectSet", "C11_complement", "C11_difference_false",
                     "C11_difference_partial", "C11_differenceSet_partial",
                     "C11_differenceSet_bounds_partial"],
  "intersect and complement in full. operator- copies and removes in place, and may keep points of "
  "the second operand (negation proved); exact when the leaves keep enough objects, and never wrong "
  "about the other points.")
c("C12", "proved", ["C12_takeDims", "C12_takeFirst", "C12_takeLast", "C12_dropFirst", "C12_dropLast",
                    "C12_append", "C12_prepend"])
c("C13", "partial", ["C13_compact_partial", "C13_disjoint_false", "C13_split_terminates"],
  "Points and equality proved in full; disjointness false when the stored ranges overlap (negation "
  "proved), proved otherwise.")
c("C14", "partial", ["C14_eq_partial", "C14_eq_nonempty", "C14_eq_false"],
  "False for empty sets remembering different ranks (negation proved); exact otherwise.")
c("C15", "proved", ["C15_visit", "C15_walk", "C15_pairs"])
c("C16", "proved", ["C16_insert", "C16_insert_empty", "C16_heuristics", "C16_history"],
  "For the class RTree, whose insertion hook does nothing. The hook of the index sets merges objects: "
  "see C07.")
c("C17", "partial", ["C17_bulk_partial", "C17_bulk_false"],
  "Minimum fan-out of inner nodes is false from 68 objects on (negation proved); objects, boundaries, "
  "uniform depth and maximum fan-out proved.")
c("C18", "partial", ["C18_points_left_false", "C18_memory_false", "C18_box_partial", "C18_set_partial",
                     "C18_histories", "C18_exact_partial", "C18_one_leaf_partial",
                     "C18_set_exact_partial"],
  "Both halves are false (negations proved): a removal that collapses a leaf may keep points of the "
  "box, and may compute the boundary of an empty node. For every history and any heuristic choice: "
  "no other point is removed and none is added; the removal is total and exact when the leaves keep "
  "enough objects or the set is stored in one leaf; exact when the box overlaps one leaf only.")
c("C19", "partial", ["C19_map_partial", "C19_map_false", "C19_roundtrip"],
  "False for divisions: the affine floordiv rounds down, map() truncates (negation proved at d0 floordiv 2, "
  "d0 = -1); proved when divisions are exact or of non-negative operands.")
c("C20", "partial", ["C20_combine_partial", "C20_combine_false"],
  "False with divisions (same rounding mismatch, after simplification; negation proved); proved for "
  "expressions without division, for every simplifier preserving values.")
c("C21", "proved", ["C21_isInvertible", "C21_inverse"])
c("C22", "partial", ["C22_image_partial", "C22_defined", "C22_generic", "C22_image_false"],
  "False for offset accesses using a dimension twice (the image of (i) -> (i,i) is the full square): "
  "negation proved; proved for the other offset accesses, constant accesses and generic accesses.")
c("C23", "partial", ["C23_roto", "C23_inverseMap_partial", "C23_generic", "C23_const",
                     "C23_inverseMap_false", "C23_const_false"],
  "False: invertible accesses ignore the parent set, constant accesses test the reverse containment "
  "(negations proved). Proved: never misses a point (offset accesses), exactness under stated conditions.")
c("C24", "partial", ["C24_set_partial", "C24_unset_partial", "C24_reach", "C24_set_false", "C24_unset_false"],
  "False: set() may invert the access of a group on the variable and add another equation; unset() drops the "
  "groups it does not touch (negations proved). Proved: unset() always clears the entry and adds none; both "
  "are pointwise if the groups map the equation to the variable. Offset/permutation and constant accesses.")
c("C25", "partial", ["C25_apply_partial", "C25_apply_box_partial", "C25_new", "C25_apply_false"],
  "False for accesses with several values per equation (negation proved); proved for permutations with "
  "offsets and for constants, any matrix and any part of the equation space; with unused dimensions or constant "
  "results for one box of equations.")
c("C26", "partial", ["C26_flattenRows_partial", "C26_flattenColumns_partial", "C26_filterRows_partial",
                     "C26_filterColumns_partial", "C26_plus_partial", "C26_minus_partial", "C26_plus_false",
                     "C26_minus_points_false", "C26_minus_functions_false", "C26_plus_points_partial",
                     "C26_flatten_scalar_partial"],
  "Sum false if the right operand has additional points, difference false across different accesses and for "
  "additional points (negations proved). Flattening and filters proved for permutation/constant accesses.")
c("C27", "partial", ["C27_solveVAF_partial", "C27_solveMCIM_partial", "C27_enumerate_false", "C27_cover_false",
                     "C27_list_partial", "C27_isValid"],
  "False: with two accesses the second is skipped and operator[] never returns; constant accesses with ranges "
  "announce no solution (negations proved). Proved for one access (offset/permutation with unused dimensions and "
  "constant results, constants) and for matrices made of such groups: containment, at most one match per index, "
  "coverage, termination of the enumeration. For any list of accesses: what is enumerated is what the accesses "
  "other than the second yield (C27_list_partial); isValid is exact (C27_isValid).")
c("C28", "proved", ["C28_partition", "C28_removeMatch_unchecked", "C28_equation_removeIndices_ub"],
  "Histories of addMatch/removeMatch/removeIndices/setMatchableIndices under their preconditions. "
  "EquationVertex::removeIndices reads a moved-from set: recorded as undefined behaviour.")
c("C29", "proved", ["C29_applyPath", "C29_grows"],
  "Incidence matrices at the level of sets of pairs; paths that visit no scalar twice.")
c("C30", "partial", ["C30_match_partial", "C30_match_scalar", "C30_match_false", "C30_leaf_ub"],
  "False: overlapping paths may be applied together (negation proved on a run returning true with a wrong "
  "matching). Proved for runs whose candidates visit every array vertex at most once, hence for all scalar "
  "systems. Scalarization not modelled.")
c("C31", "partial", ["C31_filter_partial", "C31_disjoint", "C31_candidates", "C31_filter_false"],
  "False: a path through the same array vertex twice forgets its first visit (negation proved on candidates "
  "of a reachable state). Proved otherwise, for every schedule and every stale view of the early check.")
c("C35", "partial", ["C35_order_partial", "C35_loops_partial", "C35_scalars_partial", "C35_full_false"],
  "Proved for affine reads without divisions, every loop order the directions allow. False with divisions: the "
  "relative access is computed by combine (negation proved).")
c("C36", "proved", ["C36_merge_meaning", "C36_fold_meaning", "C36_perm", "C36_least", "C36_vectors",
  "C36_vectors_perm"], "Single directions and whole vectors.")
c("C32", "partial", ["C32_array_partial", "C32_complete", "C32_order", "C32_array_false"],
  "False: the read x[i,i] is mapped to the full square, so the graph has edges that are no dependencies (negation "
  "proved). For affine accesses every dependency is an edge and the order is irrelevant; exact when no offset "
  "access uses an index twice.")
c("C33", "partial", ["C33_scalar_partial", "C33_sound", "C33_scalar_false"],
  "False: reads of several elements are compared as a whole with the written element (negation proved). Every edge "
  "is a dependency; exact when the reads are of single elements.")
c("C34", "proved", ["C34_schedule", "C34_once", "C34_scalars"],
  "Order of the components, and of the scalar equations of a component that is not schedulable as a range.")
c("C39", "partial", ["C39_one_derivative", "C39_stable", "C39_acyclic_partial", "C39_recorded_partial",
  "C39_equations", "C39_cycle_false", "C39_lost", "C39_repeat", "C39_repeat_equations"],
  "Equations: proved. Variables: one derivative per index proved; acyclicity false because a destroyed vertex "
  "stays a key of the map and its address can be reused (negation proved), proved if addresses are not reused.")
c("C40", "partial", ["C40_roundtrip_partial", "C40_text_exists", "C40_full_false"],
  "False for bounds from 2^31 on, truncated to int (negation proved); proved for smaller bounds, all lists of "
  "elements of all kinds.")
c("C41", "partial", ["C41_visible", "C41_rank", "C41_elements_partial", "C41_der_partial",
  "C41_elements_full_false", "C41_der_full_false"],
  "False: the disabled filter hides derivatives, and a regular expression does not show elements outside of the "
  "ranges tracked for the same variable (negations proved). Visibility of variables and ranks proved in full.")
c("C42", "partial", ["C42_bounds_partial", "C42_full_false"],
  "False: 4294967295 becomes unbounded (negation proved); proved below 2^31.")
c("C43", "partial", ["C43_insert_partial", "C43_between", "C43_unterminated_silent", "C43_insert_full_false",
  "C43_unterminated_full_false"],
  "False: a block comment beginning with /*/ ends there, an unterminated one is accepted (negations proved). "
  "Proved for all line comments and for block comments whose body does not begin with /.")
c("C44", "partial", ["C44_integer_partial", "C44_float_partial", "C44_exponent_partial",
  "C44_integer_full_false", "C44_float_full_false", "C44_exponent_full_false"],
  "False when the literal is followed by a word beginning with e (12else, 1.5else) and for fractions from 10^18 "
  "on, whose normalizer overflows (negations proved); proved otherwise.")
c("C45", "partial", ["Marco.Props.C45_parallelize_false", "Marco.Props.C45_groups_partial", "Marco.Props.C45_parallelize_partial"],
  "False as stated: a block reading two variables of one block counts it twice and is released once, so it is executed before all groups. Proved unconditionally for the groups that are created; proved in full when each writer is found through one read access only.")
c("C46", "proved", ["C46_expr_meaning", "C46_expr_eq", "C46_expr", "C46_equation", "C46_guard"],
  "Expression and equation paths.")
c("C47", "proved", ["C47_explicit", "C47_sound", "C47_solution", "C47_substitution"],
  "Scalar operations over any field: nested inversions along a path, and grouping of several accesses. Calls "
  "through inverse annotations that are assumed to be right.")
c("C48", "partial", ["C48_derivative_partial", "C48_full_false", "C48_full_false_pow", "C48_full_false_zero"],
  "False: the element-wise quotient creates a malformed denominator, the element-wise power needs a positive "
  "base even with constant exponent, x^0 at 0 (negations proved). Proved for the rest, all scalar operations "
  "and sums.")
c("C49", "partial", ["C49_hash_partial", "C49_hash_false"],
  "False when a set stores overlapping ranges (negation proved); proved for disjoint stored ranges.")

c("C50", "partial", ["C50_combine_false", "C50_slices_partial", "C20_combine_partial"],
  "False as soon as the first function has a range access (negation proved); proved for affine functions, and "
  "for an affine first function and a second function with range accesses (slices).")
c("C51", "partial", ["C51_map_partial", "C51_map_false"],
  "False with dependent iteration spaces (missing return; negation proved); proved without dependencies.")

c("C52", "partial", ["C52_printable_partial", "C52_filter_rank", "C52_full_false"],
  "False for bounds outside of the array, which are not clamped (negation proved); proved otherwise.")

c("C53", "proved", ["C53_containsPoint", "C53_containsBox", "C53_overlaps", "C53_anyDimensionOverlaps",
  "C53_intersect", "C53_eq", "C53_size", "C53_ofPoint"],
  "For equal ranks; contains(point) does not check the rank (C53_containsPoint_rank).")

c("C37", "partial", ["C37_full_false", "C37_duplicates", "C37_missing", "C37_diverges", "C37_only_own",
  "C37_at_least_once_partial", "C37_terminates_partial", "C37_exactly_once_partial", "C37_scalar_partial"],
  "False: a scalar equation in two components, one in no component (several write accesses), endless recursion "
  "(proved with concrete systems). Proved for scalar equations; for array equations at least once, termination "
  "without dependencies inside an array equation, exactly once if the assertion of the code holds.")
c("C38", "partial", ["C38_full_false", "C38_separated", "C38_scalar_partial"],
  "False even for three scalar equations that share a variable (negation proved); proved for scalar equations "
  "that depend on at most one other of their component.")
c("C54", "partial", ["C54_full_false", "C54_joined", "C54_scalar_partial"],
  "False: the first node of a cycle is not restricted by the last (negation proved); proved for systems of scalar "
  "equations.")
c("C55", "partial", ["C55_powerChain_false", "C55_looseOutputs_false", "C55_exprSound_partial"],
  "False: a ^ b ^ c and (a b) are accepted (negations proved); what is accepted derives from the Modelica grammar with three added constructs, with its tree.")
c("C56", "partial", ["C56_elseIf_false", "C56_dotSign_false", "C56_globalRef_false", "C56_omittedLast_false", "C56_exprComplete_partial", "C56_unique"],
  "False: elseif, .+ and .- signs, global references and omitted last outputs are not read (negations proved); proved for the rest of the grammar, with uniqueness of the tree.")
c("C57", "partial", ["C57_missingOperand_false", "C57_endOfFile_false", "C57_terminates_partial", "C57_bound"],
  "False: a missing operand is a null pointer that is dereferenced (negation proved); termination is proved for every list of tokens.")
c("C58", "partial", ["C58_chain_false", "C58_value", "C58_operationLowering_partial"],
  "False: `a and b and c` loses c (negation proved); proved for every accepted expression without chains of and/or.")
c("C59", "partial", ["C59_step_false", "C59_nested_false", "C59_undeclared_false", "C59_limit_false", "C59_forStatements_partial", "C59_deterministic"],
  "False: step and last value are swapped, several indices give consecutive loops, the limit is evaluated at each iteration (negations proved); proved if every for has one index, no step and a limit the body does not change.")
c("C60", "proved", ["C60_statements", "C60_reported"],
  "")
c("C61", "partial", ["C61_index_false", "C61_hidden_false", "C61_range_false", "C61_array_false", "C61_ragged_false", "C61_arrayConstructors_partial", "C61_scope_partial"],
  "False: iteration variables are not defined, ranges have to be 1:n, array variables are taken as scalars, ragged arrays may be accepted (negations proved); proved for the other constructors.")
c("C62", "partial", ["C62_mixed_false", "C62_first_false", "C62_vectorizedCalls_partial", "C62_unique"],
  "False: scalars and arrays cannot be mixed, the rank of the first argument is not checked (negations proved); proved for the other calls.")
c("C63", "partial", ["C63_rectangular_false", "C63_conflict_false", "C63_vectorizationLoops_partial", "C63_results"],
  "False: the size of the first dimension is taken for all of them (negations proved); proved if the additional dimensions of the first argument are the same.")
c("C64", "partial", ["C64_left_false", "C64_stuck_false", "C64_break_false", "C64_controlFlow_partial", "C64_values", "C64_source_partial"],
  "False: the then region of an if with an else is never converted (negations proved); proved if these regions contain no structured operation, also from the source with C59. For all functions: whoever reaches the exit block has the right values.")
c("C65", "partial", ["C65_order_false", "C65_sum_false", "C65_cast_false", "C65_cast_real_false", "C65_overflow_false", "C65_nan_false", "C65_absorb_false", "C65_quotient_false", "C65_full_false", "C65_binary_partial", "C65_unary_partial", "C65_undefined_partial"],
  "False: Boolean order and sums, casts to Boolean, overflow, NaN, zero times infinity, large quotients (negations proved). Proved for all other constants, with the cases left out listed in Agree1 and Agree2. Arrays and the index type are left out.")
c("C66", "partial", ["C66_empty_false", "C66_negative_false", "C66_agree_false", "C66_full_false", "C66_integers_partial", "C66_reals_partial", "C66_shift_partial", "C66_ordered", "C66_constants", "C66_zero"],
  "False for empty ranges (negations proved). For integers it is characterised when the size is right; for reals proved for ranges that are not empty and exact arithmetic; shifts proved for integers.")
c("C67", "partial", ["C67_mod_false", "C67_rem_false", "C67_power_false", "C67_full_false", "C67_unary", "C67_binary_partial"],
  "False for large integers, rem of the smallest integer, negative powers (negations proved). One operand: proved. Two operands: proved for integers of limited size, and rem, max, min of reals; not div and mod of reals, nor powers that are not integers.")
c("C68", "partial", ["C68_matching_false", "C68_equations_partial", "C68_matching_partial", "C68_overlap_partial"],
  "False (negation proved): pieces matched with nothing. The equations are kept; it is characterised when the matching is right.")
c("C69", "partial", ["C69_matching_false", "C69_equations_partial", "C69_matching_partial"],
  "False (negation proved): pieces matched with elements of other pieces. The equations are kept; it is characterised when the matching is right.")
c("C70", "partial", ["C70_matching_false", "C70_equations_partial", "C70_matching_partial"],
  "False (negation proved): equations matched with nothing. The equations are kept; the matching is proved when one range is stored, the eliminated inductions are the last ones and the write accesses agree.")
c("C71", "partial", ["C71_downwards_false", "C71_empty_false", "C71_full_false", "C71_equations_partial", "C71_ranges_partial", "C71_binding", "C71_mismatch"],
  "False for steps that are negative and for ranges without values (negations proved). Proved for ranges with positive steps, the ranges admitted if none is empty.")
c("C72", "partial", ["C72_states_false", "C72_full_false", "C72_constant_partial", "C72_complete"],
  "False when an access overlaps the written elements only partly (negation proved). Proved when each access lies wholly within or outside.")
c("C73", "partial", ["C73_initialised_false", "C73_element_false", "C73_full_false", "C73_partial", "C73_others", "C73_stays"],
  "False for equations covered by initial ones and for elements without inductions (negations proved). Proved for the variables whose equations can be moved; characterised which equations stay.")
c("C74", "partial", ["C74_start_false", "C74_unmatched_false", "C74_full_false", "C74_needed", "C74_closed_partial", "C74_noOutputs"],
  "The variables kept are characterised. Start attributes may refer to removed variables (negation proved); proved if they read needed variables only.")
c("C75", "partial", ["C75_full_false", "C75_division_false", "C75_transformation_partial", "C75_complete", "C75_refuses"],
  "The chosen iteration need not write the element, as constant subscripts are dropped (negation proved). Proved: if some iteration writes it, it is the one chosen; and it is found for accesses made of constants and offsets.")
c("C76", "partial", ["C76_restore_false", "C76_remaining_false", "C76_full_false", "C76_replace_partial", "C76_cycle_partial", "C76_solutions_partial"],
  "The solutions are kept, for cycles in which the first equation is not found again. False: that the SCC is restored when a cycle can't be solved, and that no cycle is left otherwise (negations proved).")
c("C77", "partial", ["C77_full_false", "C77_named_false", "C77_region_false", "C77_prologue_false", "C77_creation_false", "C77_creation_region_false", "C77_calls_partial", "C77_calls_crash", "C77_prologue_partial", "C77_prologue_crash", "C77_creation_partial", "C77_creation_crash"],
  "False as a whole (negations proved): a null pointer is dereferenced when the default value or the dimension of a variable reads a variable that is not in the graph, such as an input variable; names are ignored when all arguments are given; variables read inside regions become those of the caller. Proved in the other cases, for every order of the addresses, with the exact condition for the null pointer.")
c("C78", "partial", ["C78_full_false", "C78_cashKarp_false", "C78_cashKarp_wrong", "C78_cashKarp_partial", "C78_orders_partial", "C78_genericMidPoint", "C78_secondOrder", "C78_lowerOrder", "C78_polynomial_partial", "C78_linear_partial"],
  "False for the method of Cash and Karp, two coefficients of which are wrong (negation proved, also that `x' = 1` is integrated wrongly for every step size, and that the method is right with the two coefficients corrected). Proved for all other methods, as rational numbers: the rounding of the coefficients to doubles is not modelled.")
c("C79", "partial", ["C79_full_false", "C79_coupled_wrong", "C79_algebraic_wrong", "C79_array_wrong", "C79_exists_full_false", "C79_time_false", "C79_names_false", "C79_chain_false", "C79_once_false", "C79_step_partial", "C79_exists_partial"],
  "False as a whole (negations proved): inside the functions for the slopes the other states have their next values and the algebraic variables their old values, so that coupled systems are integrated wrongly in every order; equations with the time give invalid IR. Proved for systems in which each derivative depends on its own state and on parameters only, for all tableaus and all orders.")
c("C80", "partial", ["C80_estimate_full_false", "C80_estimate_reached", "C80_nonState_full_false", "C80_errors", "C80_difference", "C80_estimate_partial", "C80_accept", "C80_nonState_partial"],
  "The estimate ignores negative errors, and a model without states has no schedule for its equations (negations proved). Proved: the errors are the differences of the solutions (where C79 holds), the exact value of the estimate, the acceptance, and the schedule for models with states.")
c("C81", "partial", ["C81_full_false", "C81_chain_wrong", "C81_exists", "C81_result", "C81_step_partial", "C81_sequential"],
  "False as a whole (negation proved): if a derivative is itself a state, as after the reduction of the index, the grouping puts its update before the update of the state, in every execution. Proved without such chains, for all groupings and orders; proved for chains if the blocks are executed in the order of their creation.")
c("C82", "partial", ["C82_full_false", "C82_extract_wrong", "C82_views_wrong", "C82_views_partial", "C82_extract_partial", "C82_source"],
  "False as a whole (negation proved): subscripts are concatenated also if an inner view has a range, so that the later subscripts belong to other dimensions. Proved if the inner views have scalar subscripts only.")
c("C83", "partial", ["C83_full_false", "C83_view_never", "C83_view_undefined", "C83_extract_partial", "C83_step", "C83_unique"],
  "Proved for extractions, through any number of views. The pattern for views never applies to a valid view with a subscript, and is undefined for one without (proved).")
c("C84", "partial", ["C84_full_false", "C84_insert_wrong", "C84_insert_result", "C84_infer_partial", "C84_view_partial", "C84_insert_partial", "C84_size"],
  "Proved for the inference and for views in full, for insertions without negative steps. With a negative step the slice of an insertion starts at the end of the range and goes further down (proved, negation of the full claim).")
c("C85", "partial", ["C85_full_false", "C85_reduction_fails", "C85_reduction_missing", "C85_scalar_fails", "C85_algorithm_whole", "C85_result_partial", "C85_exists_partial"],
  "False as a whole (negation proved): derivatives in reductions are not collected, those of scalars in algorithms lead to a failing assertion, those of array elements in algorithms mark the whole array. Proved: whenever the pass succeeds the variables and the replacement are right; without derivatives in regions and algorithms it succeeds and the derived indices are exact.")
c("C86", "partial", ["C86_full_false", "C86_reduction_zero", "C86_algorithm_none", "C86_pass", "C86_both_partial"],
  "The pass alone is proved right with respect to the recorded indices. Through the materialization it is false (negation proved); proved without derivatives in regions and algorithms.")
c("C87", "partial", ["C87_full_false", "C87_inductions_wrong", "C87_ranges_fail", "C87_reduction_fails", "C87_reduction_wrong", "C87_result_wrong", "C87_calls_partial"],
  "False as a whole (negation proved, five witnesses): the pairing of inductions is not checked to be a function, arguments of reductions and results of calls are not compared, calls in reductions are cloned out of their region, templates with several ranges have their calls replaced more than once. Proved for templates without these.")
c("C88", "proved", ["C88_replaced"],
  "")
c("C89", "partial", ["C89_full_false", "C89_full_false_left", "C89_array_loops", "C89_never_ends", "C89_read_left", "C89_values_partial", "C89_ends_partial", "C89_partial"],
  "False as a whole (negation proved): a binding equation reading its own variable makes the loop endless, and reads are left when a binding equation is copied before its own reads are replaced. Values are kept in all cases; ends without self-reads; complete if the declarations are in topological order.")
c("C90", "partial", ["C90_full_false", "C90_full_false_reader", "C90_full_false_reversed", "C90_cycle", "C90_complete_partial", "C90_reads_partial", "C90_start_scc_partial", "C90_start_start_partial", "C90_writes_partial", "C90_warned_partial", "C90_partial", "C90_reversed"],
  "False as a whole (negation proved): the order between start equations follows the file and not what they read, an SCC reading the variable of a start equation may come first, and without SCCs the order is reversed. The exact order is proved for all models, and the property for those where these cases do not occur.")
c("C91", "partial", ["C91_full_false", "C91_defined_partial", "C91_starts_partial", "C91_count_partial", "C91_changes_partial", "C91_valid_partial", "C91_partial", "C91_inserted_partial"],
  "False as a whole (negation proved): a variable that only a start value depends on is not declared in the function. Proved if the start values depend on variables that the algorithm reads; the validity of the function is characterized exactly.")
c("C92", "partial", ["C92_full_false", "C92_full_false_both", "C92_full_false_zero", "C92_defined_partial", "C92_kept_partial", "C92_dynamic_partial", "C92_initial_partial", "C92_valid_partial", "C92_guesses_partial", "C92_partial", "C92_rank", "C92_rank_binding", "C92_each"],
  "False as a whole (negation proved by three witnesses on the default and the use of fixed). For all well-formed models the solutions of the equations, initial equations and start equations are characterized exactly; the claim holds where the attributes are written and do not compete with a binding equation.")
c("C93", "partial", ["C93_capture", "C93_full_false", "C93_full_false_element", "C93_full_false_region", "C93_full_false_return", "C93_full_false_output", "C93_full_false_nullary", "C93_full_false_named", "C93_chosen", "C93_partial"],
  "False as a whole (negation proved by seven witnesses). Proved for functions with inputs whose default values are constant and belong to inputs, without assignments to elements, regions that read variables and return, called without names.")
c("C94", "partial", ["C94_full_false", "C94_view_false", "C94_view_false_alarm", "C94_insert_false", "C94_insert_false_scalar", "C94_insert_false_unbounded", "C94_indexed_ub", "C94_indexed_partial", "C94_dimension_partial", "C94_divEW_partial", "C94_domain_partial", "C94_view_partial", "C94_view_scalar_partial", "C94_view_exact_partial", "C94_insert_partial"],
  "False as a whole (negation proved, six witnesses). Proved: exact for accesses with all the indices, for dimensions, divisions and domains, for views without bounded ranges; views with ranges are never stopped wrongly (non-zero steps, ranges or dimensions not empty); insertions without unbounded ranges are stopped exactly when the shapes do not fit. Missing: the bounds of ranges in views, all bounds in insertions.")
c("C95", "partial", ["C95_full_false", "C95_full_false_ranges", "C95_indices", "C95_backward", "C95_independent", "C95_scalar", "C95_mismatch", "C95_partial"],
  "False as a whole (negation proved: loops that run backward are shifted by one for every box, C95_backward; several ranges are called in the order of the index set). Proved for dimensions that run forward, if no range needs what a later range assigns, and for independent indices.")
c("C96", "partial", ["C96_full_false", "C96_product_false", "C96_scalar_false", "C96_subEW_false", "C96_right_false", "C96_div_false", "C96_size_false", "C96_pow_false", "C96_commute_scalar_false", "C96_commute_matrix_false", "C96_pow_exact", "C96_sizes", "C96_tensors_partial", "C96_arrays_partial", "C96_divEW_partial", "C96_scalar_partial", "C96_subEW_partial", "C96_product_partial", "C96_product_zero_partial", "C96_transpose_partial", "C96_pow_partial", "C96_commute_partial"],
  "False as a whole (negation proved). Proved for two arrays (sum, difference, element-wise product of any types, quotient with a real among them) and for a scalar and an array where no cast is missing; what the products and the power give is proved exactly: the product plus what the memory contained, a matrix of ones times the power.")
c("C97", "partial", ["C97_full_false", "C97_zero_false", "C97_matrix_false", "C97_type_false", "C97_div_type_false", "C97_mulEW_false", "C97_neg_partial", "C97_div_partial", "C97_div_type_partial", "C97_factor_partial", "C97_mul_partial", "C97_elementwise_partial", "C97_rank"],
  "False as a whole (negation proved). Proved for negations (all arrays, types too); for quotients (the value, for all arrays; the type, for numbers); for products if the factor that is distributed is a number other than zero, and for numbers if no quotient has an operation as divisor only.")
c("C98", "partial", ["C98_full_false", "C98_default_false", "C98_names_false", "C98_template_partial", "C98_first_partial", "C98_second_partial"],
  "False as a whole (negation proved). Proved for first and second derivatives if the independent variables are declared before all the variables that are not inputs and no variable has a default value, where the rules for the expressions are right (C48); for the template function also along any curve of arguments.")
c("C99", "partial", ["C99_least", "C99_order", "C99_internal", "C99_partition", "C99_square_partial", "C99_chain_false", "C99_chain_reduced_false", "C99_full_false"],
  "The choice of variables and equations is proved to be the least closed one and the partition exact, for all models. That the system is square and has the states of the model is false with derivatives of derivatives (negation proved), and proved if no derivative is a state.")
c("C100", "partial", ["C100_jacobian_partial", "C100_template", "C100_created", "C100_capture_false", "C100_full_false"],
  "The value of the Jacobian functions is proved for all models and equations whose operations are supported by the differentiation (C48), if no parameter has the name of a local variable of the function differentiated. Without that it is false (negation proved).")
c("C101", "partial", ["C101_replace_partial", "C101_terminates", "C101_full_false"],
  "Proved if the subscripts of the written accesses are constants and offsets of induction variables, each occurring once. Without that it is false (negation proved): an equation is dropped.")
c("C102", "partial", ["C102_reads_partial", "C102_exact_partial", "C102_full_false", "C102_reals_missed", "C102_view_missed", "C102_two_undefined", "C102_three_missed"],
  "Proved for subscripts that are arithmetic without ranges and quotients, and reductions with one iterable, a constant range of integers with step one (the exactness without reductions). Otherwise false (negations proved): the last element of a range subscript and of an iterable of reals is missed, subscripts of a slice are appended to those of the slice, and several iterables of a reduction are mixed up or undefined.")
c("C103", "partial", ["C103_distinct", "C103_path_partial", "C103_several_partial", "C103_full_false", "C103_sum_wrong", "C103_cast_wrong"],
  "The paths are distinct for all equations. That they lead to the access is proved without reductions and if only variables are subscripted; otherwise it is false (negations proved): within a reduction no access is found, and subscriptions of other values add nothing to the path.")
c("C104", "partial", ["C104_ida_partial", "C104_kinsol_partial", "C104_operations_partial", "C104_rounding_wrong", "C104_reduction_missed", "C104_full_false", "C104_kinsol_undefined"],
  "Proved for arithmetic subscripts and reductions with one constant range (as C102); for IDA a scalar equation must not have a generic access, for KINSOL all accesses must be affine (else undefined). Otherwise false: negations proved.")
c("C105", "partial", ["C105_set_partial", "C105_variable_partial", "C105_sets_partial", "C105_variables_partial", "C105_sets_text_partial", "C105_variables_text_partial", "C105_schedules", "C105_full_false", "C105_scalar_wrong", "C105_unnamed_wrong", "C105_emptied_wrong"],
  "Proved for single sets and named variables in all three forms, for lists in the attribute and bytecode forms, for lists of directions in all forms. The text of a list is read back if the elements without indices come first and the others have the same rank; otherwise it is false (negation proved). Undefined behaviour is left possible only if ranges of a set can be merged (C07).")
c("C106", "partial", ["C106_inverse_partial", "C106_inverse_full_false", "C106_indices", "C106_equal", "C106_hash_wrong", "C106_roundtrip", "C106_text_partial", "C106_text_full_false", "C106_order_wrong"],
  "Indices, equality, attribute and bytecode are proved for all histories and maps. The two directions are inverse if no variable is given two derivatives (otherwise false, negation proved); texts are read back if the parts of the map agree (otherwise false, negation proved).")
c("C107", "partial", ["C107_calls", "C107_variables", "C107_single_partial", "C107_single_full_false", "C107_compare_wrong"],
  "Calls, schedulers and accesses are proved for all modules and schedules. The last clause is proved for elements of arrays; for scalar equations it is false (negation proved).")
c("C108", "partial", ["C108_matching_partial", "C108_model_partial", "C108_scalar_partial", "C108_instances", "C108_full_false", "C108_empty_wrong"],
  "Proved for models with at least one equation, if the algorithm gives perfect matchings; for scalar models this is proved of the algorithm itself (C30). Without equations the numbers are not compared (negation proved).")
c("C109", "partial", ["C109_unmatched", "C109_accesses_partial", "C109_scalar_variable_partial", "C109_scalar_equation_partial", "C109_one_access_partial", "C109_no_write", "C109_read_lost", "C109_full_false", "C109_second_false"],
  "False in general (two witnesses, one of them a model with a single perfect matching). Proved: exactly when it holds; and that it holds for scalar variables, scalar equations, and variables accessed in one way, for all perfect matchings.")
c("C110", "partial", ["C110_detection_partial", "C110_scalar_partial", "C110_ready", "C110_pipeline_partial", "C110_scalar_pipeline_partial", "C110_clone_wrong", "C110_full_false"],
  "False in general (the search gives a scalar equation twice, C37). Proved: it holds whenever the assertion on the cycles holds; composed with the matching pass; and, for models of scalar equations, without assumptions on the search and on the accesses. That the assertion holds for array equations is not proved (it does not in general).")
c("C111", "partial", ["C111_describes_partial", "C111_made", "C111_single_partial", "C111_reserved_wrong", "C111_three_ub", "C111_full_false"],
  "False in general (reserved variables are counted in the numbers of the derivatives; with three ranges the compiler reads destroyed operands). Proved: whenever no reserved variable stands before a derivative and the program is made; it is made when the user asks for at most one piece of each variable.")
c("C112", "partial", ["C112_keeps_partial", "C112_restrict", "C112_induction_fails", "C112_order_matters", "C112_full_false"],
  "False in general: an equation with an operation on an induction variable, even in a subscript, is not differentiated (null template). Proved: whenever the differentiation succeeds and C48 supports the derivatives, with the requests as made for visited vertices.")
c("C113", "partial", ["C113_calls_partial", "C113_names_partial", "C113_runtime_partial", "C113_inverse_fails", "C113_runtime_clash", "C113_class_clash", "C113_inverse_dropped", "C113_full_false"],
  "False in general: the names in the inverse annotations are not mangled (no inverse call ever leads to a function), the annotations of nested functions are dropped, and user names can clash with runtime functions or with classes beginning with _M. Proved: all calls keep their callee, the names are distinct.")
c("C114", "partial", ["C114_set_partial", "C114_deep_partial", "C114_record_partial", "C114_values", "C114_record_results", "C114_results_partial", "C114_get_partial", "C114_nested_get_fails", "C114_nested_set_fails", "C114_array_set_fails", "C114_deep_wrong", "C114_deeper_undefined", "C114_results_wrong", "C114_full_false"],
  "False in general: nested records are not read and not assigned, arrays of records are not assigned, results after a record are permuted, subscripts in paths of more than two components are misplaced. Proved: one level with any subscripts, any depth without arrays, flat records, results before any record.")
c("C115", "partial", ["C115_elements_partial", "C115_empty_undefined", "C115_fill", "C115_copy", "C115_view_partial", "C115_row_undefined", "C115_fixed_undefined", "C115_merge_partial", "C115_merge_fails", "C115_access", "C115_full_false"],
  "False in general: empty arrays read outside of the values, views are cast to a type with offset 0, an index with a constant range fails an assertion, subscriptions of slices are merged wrongly. Proved: fill, copy and access merging in full; arrays without empty dimensions, views whose cast is folded away, merging after subscriptions without ranges.")
c("C116", "partial", ["C116_reads_partial", "C116_column", "C116_middle", "C116_full_false"],
  "False in general: fewer subscripts than the rank on the last component are used for its last dimensions, and subscripts of a component in the middle are used for the dimensions of the components before it. Proved for all other references.")
c("C117", "partial", ["C117_arguments_partial", "C117_casts", "C117_count", "C117_mismatch", "C117_indices", "C117_condition", "C117_names_lost", "C117_record_partial", "C117_record_undefined", "C117_record_mixed_undefined", "C117_named", "C117_default", "C117_full_false"],
  "False in general: named arguments are passed in the order of the call, and calls that leave out a parameter with a default value are refused. Proved for all calls with one argument for each parameter, in the order of the declarations.")
c("C118", "partial", ["C118_call_partial", "C118_cells", "C118_truncated", "C118_slice", "C118_slice_received", "C118_boolean", "C118_language", "C118_declared", "C118_full_false"],
  "False in general: Integers beyond the width of int, slices of arrays of Reals, and Booleans for which the function returns a value other than 0 and 1. Proved for all other calls whose arrays are in different buffers.")
c("C119", "partial", ["C119_call_partial", "C119_element", "C119_declared", "C119_implicit", "C119_outputs", "C119_full_false"],
  "False in general: what the function writes to an element of an array is lost. Proved for all other calls in which no variable is passed twice.")
c("C120", "partial", ["C120_run_partial", "C120_live", "C120_outside", "C120_create_partial", "C120_verify", "C120_dynamic", "C120_expression", "C120_mixed", "C120_released", "C120_overwritten", "C120_full_false"],
  "False in general: arrays with a dimension given by an expression, and arrays used after an assignment to the variable from which they have been read. Proved for all other declarations and sequences of operations.")
c("C121", "partial", ["C121_decls_partial", "C121_marco", "C121_reads", "C121_modification", "C121_assign", "C121_injective", "C121_number_first", "C121_redeclare","C121_replaceable", "C121_after_name", "C121_full_false"],
  "False in general: a dimension that begins with a number and goes on (Real[2 * n] x) is refused. Proved for all sections without such dimensions. Redeclarations reach llvm_unreachable.")
c("C122", "partial", ["C122_section_partial", "C122_marco", "C122_reads", "C122_when", "C122_when_if", "C122_injective", "C122_full_false"],
  "False in general: each when equation is refused, because end if is expected at its end. Proved for all sections without when.")
c("C123", "partial", ["C123_section_partial", "C123_marco", "C123_reads", "C123_injective", "C123_when", "C123_when_loop", "C123_empty_call", "C123_marco_empty_call", "C123_initial", "C123_full_false"],
  "False in general: when statements are refused, a call without arguments as a statement uses a null pointer, and a section before initial equation is refused. Proved for all other sections.")

here = os.path.dirname(os.path.abspath(__file__))
ids = [json.loads(l)["id"] for l in open(os.path.join(here, "../properties.jsonl")) if l.strip()]
for i in ids:
    if i not in C:
        c(i, "not_applicable", [], "Not modelled yet.")
with open(os.path.join(here, "../MANIFEST.json"), "w") as f:
    f.write('{"claims": [\n' + ",\n".join(" " + json.dumps(C[i]) for i in ids) + "\n]}\n")
