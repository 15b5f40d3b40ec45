# Axioms

Printed by `#print axioms` (`scripts/axioms.py`).

| theorem | axioms |
|---|---|
| `C01_iteration` | Classical.choice, Quot.sound, propext |
| `C01_emits_unique` | propext |
| `C02_containsInt` | propext |
| `C02_containsRange` | Classical.choice, Quot.sound, propext |
| `C02_overlaps` | Classical.choice, Quot.sound, propext |
| `C02_intersect` | Classical.choice, Quot.sound, propext |
| `C02_canBeMerged` | Classical.choice, Quot.sound, propext |
| `C02_merge` | Classical.choice, Quot.sound, propext |
| `C02_subtract` | Classical.choice, Quot.sound, propext |
| `C03_subtract_partition` | Classical.choice, Quot.sound, propext |
| `C03_subtract_covered` | Classical.choice, Quot.sound, propext |
| `C03_subtract_disjoint` | Classical.choice, Quot.sound, propext |
| `C04_merge_exact` | Classical.choice, Quot.sound, propext |
| `C04_merge_complete` | Classical.choice, Quot.sound, propext |
| `C05_range` | Classical.choice, Quot.sound, propext |
| `C05_range_compare` | Classical.choice, Quot.sound, propext |
| `C05_point` | Classical.choice, Quot.sound, propext |
| `C05_box` | Classical.choice, Quot.sound, propext |
| `C05_box_gt` | Classical.choice, Quot.sound, propext |
| `C06_eqPoint_partial` | Classical.choice, Quot.sound, propext |
| `C06_eqPoint_false` | propext |
| `C07_exact_partial` | Classical.choice, Quot.sound, propext |
| `C07_history_partial` | Classical.choice, Quot.sound, propext |
| `C07_apart_partial` | Classical.choice, Quot.sound, propext |
| `C07_points_partial` | Classical.choice, Quot.sound, propext |
| `C07_history_false` | Quot.sound, propext |
| `C08_each_once` | Classical.choice, Quot.sound, propext |
| `C08_history_partial` | Classical.choice, Quot.sound, propext |
| `C08_apart_partial` | Classical.choice, Quot.sound, propext |
| `C08_points_partial` | Classical.choice, Quot.sound, propext |
| `C08_history_false` | Quot.sound, propext |
| `C09_fromRanges_partial` | Classical.choice, Quot.sound, propext |
| `C09_disjoint_false` | Classical.choice, Quot.sound, propext |
| `C10_containsPoint` | Classical.choice, Quot.sound, propext |
| `C10_containsBox` | Classical.choice, Quot.sound, propext |
| `C10_overlapsBox` | Classical.choice, Quot.sound, propext |
| `C10_overlapsSet` | Classical.choice, Quot.sound, propext |
| `C10_containsSet_partial` | Classical.choice, Quot.sound, propext |
| `C10_containsSet_sound` | Classical.choice, Quot.sound, propext |
| `C10_containsSet_false` | Classical.choice, Quot.sound, propext |
| `C11_intersectBox` | Classical.choice, Quot.sound, propext |
| `C11_intersectSet` | Classical.choice, Quot.sound, propext |
| `C11_complement` | Classical.choice, Quot.sound, propext |
| `C11_difference_false` | Quot.sound, propext |
| `C11_difference_partial` | Classical.choice, Quot.sound, propext |
| `C11_differenceSet_partial` | Classical.choice, Quot.sound, propext |
| `C11_differenceSet_bounds_partial` | Classical.choice, Quot.sound, propext |
| `C12_takeDims` | Classical.choice, Quot.sound, propext |
| `C12_takeFirst` | Classical.choice, Quot.sound, propext |
| `C12_takeLast` | Classical.choice, Quot.sound, propext |
| `C12_dropFirst` | Classical.choice, Quot.sound, propext |
| `C12_dropLast` | Classical.choice, Quot.sound, propext |
| `C12_append` | Classical.choice, Quot.sound, propext |
| `C12_prepend` | Classical.choice, Quot.sound, propext |
| `C13_compact_partial` | Classical.choice, Quot.sound, propext |
| `C13_disjoint_false` | Classical.choice, Quot.sound, propext |
| `C13_split_terminates` | Classical.choice, Quot.sound, propext |
| `C14_eq_partial` | Classical.choice, Quot.sound, propext |
| `C14_eq_nonempty` | Classical.choice, Quot.sound, propext |
| `C14_eq_false` | Quot.sound, propext |
| `C15_visit` | Classical.choice, Quot.sound, propext |
| `C15_walk` | Classical.choice, Quot.sound, propext |
| `C15_pairs` | Classical.choice, Quot.sound, propext |
| `C16_insert` | Classical.choice, Quot.sound, propext |
| `C16_insert_empty` | Classical.choice, Quot.sound, propext |
| `C16_heuristics` | Classical.choice, Quot.sound, propext |
| `C16_history` | Classical.choice, Quot.sound, propext |
| `C17_bulk_partial` | Classical.choice, Quot.sound, propext |
| `C17_bulk_false` | Classical.choice, Quot.sound, propext |
| `C18_points_left_false` | Quot.sound, propext |
| `C18_memory_false` | Quot.sound, propext |
| `C18_box_partial` | Classical.choice, Quot.sound, propext |
| `C18_set_partial` | Classical.choice, Quot.sound, propext |
| `C18_histories` | Classical.choice, Quot.sound, propext |
| `C18_exact_partial` | Classical.choice, Quot.sound, propext |
| `C18_one_leaf_partial` | Classical.choice, Quot.sound, propext |
| `C18_set_exact_partial` | Classical.choice, Quot.sound, propext |
| `C19_map_partial` | Classical.choice, Quot.sound, propext |
| `C19_map_false` | Classical.choice, Quot.sound, propext |
| `C19_roundtrip` | Quot.sound, propext |
| `C20_combine_partial` | Classical.choice, Quot.sound, propext |
| `C20_combine_false` | Classical.choice, Quot.sound, propext |
| `C21_isInvertible` | Classical.choice, Quot.sound, propext |
| `C21_inverse` | Classical.choice, Quot.sound, propext |
| `C22_image_partial` | Classical.choice, Quot.sound, propext |
| `C22_defined` | Classical.choice, Quot.sound, propext |
| `C22_generic` | Classical.choice, Quot.sound, propext |
| `C22_image_false` | Classical.choice, Quot.sound, propext |
| `C23_roto` | Classical.choice, Quot.sound, propext |
| `C23_inverseMap_partial` | Classical.choice, Quot.sound, propext |
| `C23_generic` | Classical.choice, Quot.sound, propext |
| `C23_const` | Classical.choice, Quot.sound, propext |
| `C23_inverseMap_false` | Classical.choice, Quot.sound, propext |
| `C23_const_false` | propext |
| `C24_set_partial` | Classical.choice, Quot.sound, propext |
| `C24_unset_partial` | Classical.choice, Quot.sound, propext |
| `C24_reach` | Classical.choice, Quot.sound, propext |
| `C24_set_false` | Classical.choice, Quot.sound, propext |
| `C24_unset_false` | Classical.choice, Quot.sound, propext |
| `C25_apply_partial` | Classical.choice, Quot.sound, propext |
| `C25_apply_box_partial` | Classical.choice, Quot.sound, propext |
| `C25_new` | Classical.choice, Quot.sound, propext |
| `C25_apply_false` | Classical.choice, Quot.sound, propext |
| `C26_flattenRows_partial` | Classical.choice, Quot.sound, propext |
| `C26_flattenColumns_partial` | Classical.choice, Quot.sound, propext |
| `C26_filterRows_partial` | Classical.choice, Quot.sound, propext |
| `C26_filterColumns_partial` | Classical.choice, Quot.sound, propext |
| `C26_plus_partial` | Classical.choice, Quot.sound, propext |
| `C26_minus_partial` | Classical.choice, Quot.sound, propext |
| `C26_plus_false` | Classical.choice, Quot.sound, propext |
| `C26_minus_points_false` | Classical.choice, Quot.sound, propext |
| `C26_minus_functions_false` | propext |
| `C26_plus_points_partial` | Classical.choice, Quot.sound, propext |
| `C26_flatten_scalar_partial` | Classical.choice, Quot.sound, propext |
| `C27_solveVAF_partial` | Classical.choice, Quot.sound, propext |
| `C27_solveMCIM_partial` | Classical.choice, Quot.sound, propext |
| `C27_enumerate_false` | Classical.choice, Quot.sound, propext |
| `C27_cover_false` | Classical.choice, Quot.sound, propext |
| `C27_list_partial` | Classical.choice, Quot.sound, propext |
| `C27_isValid` | Classical.choice, Quot.sound, propext |
| `C28_partition` | Classical.choice, Quot.sound, propext |
| `C28_removeMatch_unchecked` | Classical.choice, Quot.sound, propext |
| `C28_equation_removeIndices_ub` | Classical.choice, Quot.sound, propext |
| `C29_applyPath` | Classical.choice, Quot.sound, propext |
| `C29_grows` | Classical.choice, Quot.sound, propext |
| `C30_match_partial` | Classical.choice, Quot.sound, propext |
| `C30_match_scalar` | Classical.choice, Quot.sound, propext |
| `C30_match_false` | Classical.choice, Quot.sound, propext |
| `C30_leaf_ub` | Classical.choice, Quot.sound, propext |
| `C31_filter_partial` | Classical.choice, Quot.sound, propext |
| `C31_disjoint` | Classical.choice, Quot.sound, propext |
| `C31_candidates` | Classical.choice, Quot.sound, propext |
| `C31_filter_false` | Classical.choice, Quot.sound, propext |
| `C32_array_partial` | Classical.choice, Quot.sound, propext |
| `C32_complete` | Classical.choice, Quot.sound, propext |
| `C32_order` | Classical.choice, Quot.sound, propext |
| `C32_array_false` | Classical.choice, Quot.sound, propext |
| `C33_scalar_partial` | Classical.choice, Quot.sound, propext |
| `C33_sound` | Classical.choice, Quot.sound, propext |
| `C33_scalar_false` | Classical.choice, Quot.sound, propext |
| `C34_schedule` | Classical.choice, Quot.sound, propext |
| `C34_once` | Classical.choice, Quot.sound, propext |
| `C34_scalars` | Classical.choice, Quot.sound, propext |
| `C35_order_partial` | Classical.choice, Quot.sound, propext |
| `C35_loops_partial` | Classical.choice, Quot.sound, propext |
| `C35_scalars_partial` | Classical.choice, Quot.sound, propext |
| `C35_full_false` | Classical.choice, Quot.sound, propext |
| `C36_merge_meaning` | propext |
| `C36_fold_meaning` | Quot.sound, propext |
| `C36_perm` | Quot.sound, propext |
| `C36_least` | Quot.sound, propext |
| `C36_vectors` | Quot.sound, propext |
| `C36_vectors_perm` | Quot.sound, propext |
| `C37_full_false` | Classical.choice, Quot.sound, propext |
| `C37_duplicates` | Classical.choice, Quot.sound, propext |
| `C37_missing` | Classical.choice, Quot.sound, propext |
| `C37_diverges` | Classical.choice, Quot.sound, propext |
| `C37_only_own` | Classical.choice, Quot.sound, propext |
| `C37_at_least_once_partial` | Classical.choice, Quot.sound, propext |
| `C37_terminates_partial` | Classical.choice, Quot.sound, propext |
| `C37_exactly_once_partial` | Classical.choice, Quot.sound, propext |
| `C37_scalar_partial` | Classical.choice, Quot.sound, propext |
| `C38_full_false` | Classical.choice, Quot.sound, propext |
| `C38_separated` | Classical.choice, Quot.sound, propext |
| `C38_scalar_partial` | Classical.choice, Quot.sound, propext |
| `C39_one_derivative` | Classical.choice, Quot.sound, propext |
| `C39_stable` | Classical.choice, Quot.sound, propext |
| `C39_acyclic_partial` | Classical.choice, Quot.sound, propext |
| `C39_recorded_partial` | Classical.choice, Quot.sound, propext |
| `C39_equations` | Classical.choice, Quot.sound, propext |
| `C39_cycle_false` | Classical.choice, Quot.sound, propext |
| `C39_lost` | Classical.choice, Quot.sound, propext |
| `C39_repeat` | Classical.choice, Quot.sound, propext |
| `C39_repeat_equations` | Classical.choice, Quot.sound, propext |
| `C40_roundtrip_partial` | Classical.choice, Quot.sound, propext |
| `C40_text_exists` | Quot.sound, propext |
| `C40_full_false` | Classical.choice, Quot.sound, propext |
| `C41_visible` | Quot.sound, propext |
| `C41_rank` | Quot.sound, propext |
| `C41_elements_partial` | Quot.sound, propext |
| `C41_der_partial` | Quot.sound, propext |
| `C41_elements_full_false` | Classical.choice, Quot.sound, propext |
| `C41_der_full_false` | propext |
| `C42_bounds_partial` | Classical.choice, Quot.sound, propext |
| `C42_full_false` | Classical.choice, Quot.sound, propext |
| `C43_insert_partial` | Classical.choice, Quot.sound, propext |
| `C43_between` | Classical.choice, Quot.sound, propext |
| `C43_unterminated_silent` | Classical.choice, Quot.sound, propext |
| `C43_insert_full_false` | Classical.choice, Quot.sound, propext |
| `C43_unterminated_full_false` | Classical.choice, Quot.sound, propext |
| `C44_integer_partial` | Classical.choice, Quot.sound, propext |
| `C44_float_partial` | Classical.choice, Quot.sound, propext |
| `C44_exponent_partial` | Classical.choice, Quot.sound, propext |
| `C44_integer_full_false` | Classical.choice, Quot.sound, propext |
| `C44_float_full_false` | Classical.choice, Quot.sound, propext |
| `C44_exponent_full_false` | Classical.choice, Quot.sound, propext |
| `C45_parallelize_false` | Classical.choice, Quot.sound, propext |
| `C45_groups_partial` | Classical.choice, Quot.sound, propext |
| `C45_parallelize_partial` | Classical.choice, Quot.sound, propext |
| `C46_expr_meaning` | Quot.sound, propext |
| `C46_expr_eq` | Classical.choice, Quot.sound, propext |
| `C46_expr` | Classical.choice, Quot.sound, propext |
| `C46_equation` | Classical.choice, Quot.sound, propext |
| `C46_guard` | propext |
| `C47_explicit` | Classical.choice, Quot.sound, propext |
| `C47_sound` | Classical.choice, Quot.sound, propext |
| `C47_solution` | Classical.choice, Quot.sound, propext |
| `C47_substitution` | Classical.choice, Quot.sound, propext |
| `C48_derivative_partial` | Classical.choice, Quot.sound, propext |
| `C48_full_false` | Classical.choice, Quot.sound, propext |
| `C48_full_false_pow` | Classical.choice, Quot.sound, propext |
| `C48_full_false_zero` | Classical.choice, Quot.sound, propext |
| `C49_hash_partial` | Classical.choice, Quot.sound, propext |
| `C49_hash_false` | Classical.choice, Quot.sound, propext |
| `C50_combine_false` | Classical.choice, Quot.sound, propext |
| `C50_slices_partial` | Classical.choice, Quot.sound, propext |
| `C20_combine_partial` | Classical.choice, Quot.sound, propext |
| `C51_map_partial` | Classical.choice, Quot.sound, propext |
| `C51_map_false` | Classical.choice, Quot.sound, propext |
| `C52_printable_partial` | Classical.choice, Quot.sound, propext |
| `C52_filter_rank` | Quot.sound, propext |
| `C52_full_false` | Classical.choice, Quot.sound, propext |
| `C53_containsPoint` | Classical.choice, Quot.sound, propext |
| `C53_containsBox` | Classical.choice, Quot.sound, propext |
| `C53_overlaps` | Classical.choice, Quot.sound, propext |
| `C53_anyDimensionOverlaps` | Classical.choice, Quot.sound, propext |
| `C53_intersect` | Classical.choice, Quot.sound, propext |
| `C53_eq` | Classical.choice, Quot.sound, propext |
| `C53_size` | Classical.choice, Quot.sound, propext |
| `C53_ofPoint` | Classical.choice, Quot.sound, propext |
| `C54_full_false` | Classical.choice, Quot.sound, propext |
| `C54_joined` | Classical.choice, Quot.sound, propext |
| `C54_scalar_partial` | Classical.choice, Quot.sound, propext |
| `C55_powerChain_false` | Quot.sound, propext |
| `C55_looseOutputs_false` | Classical.choice, Quot.sound, propext |
| `C55_exprSound_partial` | Quot.sound, propext |
| `C56_elseIf_false` | Quot.sound, propext |
| `C56_dotSign_false` | Quot.sound, propext |
| `C56_globalRef_false` | Quot.sound, propext |
| `C56_omittedLast_false` | Quot.sound, propext |
| `C56_exprComplete_partial` | Classical.choice, Quot.sound, propext |
| `C56_unique` | Classical.choice, Quot.sound, propext |
| `C57_missingOperand_false` | propext |
| `C57_endOfFile_false` | propext |
| `C57_terminates_partial` | Quot.sound, propext |
| `C57_bound` | Quot.sound, propext |
| `C58_chain_false` | Quot.sound, propext |
| `C58_value` | Quot.sound, propext |
| `C58_operationLowering_partial` | Quot.sound, propext |
| `C59_step_false` | Classical.choice, Quot.sound, propext |
| `C59_nested_false` | Classical.choice, Quot.sound, propext |
| `C59_undeclared_false` | propext |
| `C59_limit_false` | Classical.choice, Quot.sound, propext |
| `C59_forStatements_partial` | Classical.choice, Quot.sound, propext |
| `C59_deterministic` | Classical.choice, Quot.sound, propext |
| `C60_statements` | Classical.choice, Quot.sound, propext |
| `C60_reported` | propext |
| `C61_index_false` | Quot.sound, propext |
| `C61_hidden_false` | Quot.sound, propext |
| `C61_range_false` | Quot.sound, propext |
| `C61_array_false` | Classical.choice, Quot.sound, propext |
| `C61_ragged_false` | Classical.choice, Quot.sound, propext |
| `C61_arrayConstructors_partial` | Classical.choice, Quot.sound, propext |
| `C61_scope_partial` | Classical.choice, Quot.sound, propext |
| `C62_mixed_false` | propext |
| `C62_first_false` | Quot.sound, propext |
| `C62_vectorizedCalls_partial` | Classical.choice, Quot.sound, propext |
| `C62_unique` | Classical.choice, Quot.sound, propext |
| `C63_rectangular_false` | Classical.choice, Quot.sound, propext |
| `C63_conflict_false` | Classical.choice, Quot.sound, propext |
| `C63_vectorizationLoops_partial` | Classical.choice, Quot.sound, propext |
| `C63_results` | propext |
| `C64_left_false` | propext |
| `C64_stuck_false` | Classical.choice, Quot.sound, propext |
| `C64_break_false` | propext |
| `C64_controlFlow_partial` | Classical.choice, Quot.sound, propext |
| `C64_values` | Classical.choice, Quot.sound, propext |
| `C64_source_partial` | Classical.choice, Quot.sound, propext |
| `C65_order_false` | propext |
| `C65_sum_false` | propext |
| `C65_cast_false` | propext |
| `C65_cast_real_false` | Classical.choice, Quot.sound, propext |
| `C65_overflow_false` | Classical.choice, Quot.sound, propext |
| `C65_nan_false` | Classical.choice, Quot.sound, propext |
| `C65_absorb_false` | Classical.choice, Quot.sound, propext |
| `C65_quotient_false` | Classical.choice, Quot.sound, propext |
| `C65_full_false` | Classical.choice, Quot.sound, propext |
| `C65_binary_partial` | Classical.choice, Quot.sound, propext |
| `C65_unary_partial` | Classical.choice, Quot.sound, propext |
| `C65_undefined_partial` | Classical.choice, Quot.sound, propext |
| `C66_empty_false` | Classical.choice, Quot.sound, propext |
| `C66_negative_false` | Classical.choice, Quot.sound, propext |
| `C66_agree_false` | Classical.choice, Quot.sound, propext |
| `C66_full_false` | Classical.choice, Quot.sound, propext |
| `C66_integers_partial` | Classical.choice, Quot.sound, propext |
| `C66_reals_partial` | Classical.choice, Quot.sound, propext |
| `C66_shift_partial` | Classical.choice, Quot.sound, propext |
| `C66_ordered` | propext |
| `C66_constants` | Classical.choice, Quot.sound, propext |
| `C66_zero` | Classical.choice, Quot.sound, propext |
| `C67_mod_false` | Classical.choice, Quot.sound, propext |
| `C67_rem_false` | Classical.choice, Quot.sound, propext |
| `C67_power_false` | Classical.choice, Quot.sound, propext |
| `C67_full_false` | Classical.choice, Quot.sound, propext |
| `C67_unary` | Classical.choice, Quot.sound, propext |
| `C67_binary_partial` | Classical.choice, Quot.sound, propext |
| `C68_matching_false` | Classical.choice, Quot.sound, propext |
| `C68_equations_partial` | Classical.choice, Quot.sound, propext |
| `C68_matching_partial` | Classical.choice, Quot.sound, propext |
| `C68_overlap_partial` | Classical.choice, Quot.sound, propext |
| `C69_matching_false` | Classical.choice, Quot.sound, propext |
| `C69_equations_partial` | Classical.choice, Quot.sound, propext |
| `C69_matching_partial` | Classical.choice, Quot.sound, propext |
| `C70_matching_false` | Classical.choice, Quot.sound, propext |
| `C70_equations_partial` | Classical.choice, Quot.sound, propext |
| `C70_matching_partial` | Classical.choice, Quot.sound, propext |
| `C71_downwards_false` | Classical.choice, Quot.sound, propext |
| `C71_empty_false` | Classical.choice, Quot.sound, propext |
| `C71_full_false` | Classical.choice, Quot.sound, propext |
| `C71_equations_partial` | Classical.choice, Quot.sound, propext |
| `C71_ranges_partial` | Classical.choice, Quot.sound, propext |
| `C71_binding` | Classical.choice, Quot.sound, propext |
| `C71_mismatch` | Quot.sound, propext |
| `C72_states_false` | Classical.choice, Quot.sound, propext |
| `C72_full_false` | Classical.choice, Quot.sound, propext |
| `C72_constant_partial` | Classical.choice, Quot.sound, propext |
| `C72_complete` | Classical.choice, Quot.sound, propext |
| `C73_initialised_false` | Classical.choice, Quot.sound, propext |
| `C73_element_false` | Classical.choice, Quot.sound, propext |
| `C73_full_false` | Classical.choice, Quot.sound, propext |
| `C73_partial` | Classical.choice, Quot.sound, propext |
| `C73_others` | Classical.choice, Quot.sound, propext |
| `C73_stays` | Classical.choice, Quot.sound, propext |
| `C74_start_false` | Classical.choice, Quot.sound, propext |
| `C74_unmatched_false` | Classical.choice, Quot.sound, propext |
| `C74_full_false` | Classical.choice, Quot.sound, propext |
| `C74_needed` | Classical.choice, Quot.sound, propext |
| `C74_closed_partial` | Classical.choice, Quot.sound, propext |
| `C74_noOutputs` | Classical.choice, Quot.sound, propext |
| `C75_full_false` | propext |
| `C75_division_false` | propext |
| `C75_transformation_partial` | Classical.choice, Quot.sound, propext |
| `C75_complete` | Classical.choice, Quot.sound, propext |
| `C75_refuses` | propext |
| `C76_restore_false` | Classical.choice, Quot.sound, propext |
| `C76_remaining_false` | Classical.choice, Quot.sound, propext |
| `C76_full_false` | Classical.choice, Quot.sound, propext |
| `C76_replace_partial` | Classical.choice, Quot.sound, propext |
| `C76_cycle_partial` | Classical.choice, Quot.sound, propext |
| `C76_solutions_partial` | Classical.choice, Quot.sound, propext |
| `C77_full_false` | Classical.choice, Quot.sound, propext |
| `C77_named_false` | Quot.sound, propext |
| `C77_region_false` | Quot.sound, propext |
| `C77_prologue_false` | Classical.choice, Quot.sound, propext |
| `C77_creation_false` | Classical.choice, Quot.sound, propext |
| `C77_creation_region_false` | propext |
| `C77_calls_partial` | Classical.choice, Quot.sound, propext |
| `C77_calls_crash` | Classical.choice, Quot.sound, propext |
| `C77_prologue_partial` | Classical.choice, Quot.sound, propext |
| `C77_prologue_crash` | Classical.choice, Quot.sound, propext |
| `C77_creation_partial` | Classical.choice, Quot.sound, propext |
| `C77_creation_crash` | Classical.choice, Quot.sound, propext |
| `C78_full_false` | Classical.choice, Quot.sound, propext |
| `C78_cashKarp_false` | Classical.choice, Quot.sound, propext |
| `C78_cashKarp_wrong` | Classical.choice, Quot.sound, propext |
| `C78_cashKarp_partial` | Classical.choice, Quot.sound, propext |
| `C78_orders_partial` | Classical.choice, Quot.sound, propext |
| `C78_genericMidPoint` | Classical.choice, Quot.sound, propext |
| `C78_secondOrder` | Classical.choice, Quot.sound, propext |
| `C78_lowerOrder` | Classical.choice, Quot.sound, propext |
| `C78_polynomial_partial` | Classical.choice, Quot.sound, propext |
| `C78_linear_partial` | Classical.choice, Quot.sound, propext |
| `C79_full_false` | Classical.choice, Quot.sound, propext |
| `C79_coupled_wrong` | Classical.choice, Quot.sound, propext |
| `C79_algebraic_wrong` | Classical.choice, Quot.sound, propext |
| `C79_array_wrong` | Classical.choice, Quot.sound, propext |
| `C79_exists_full_false` | Classical.choice, Quot.sound, propext |
| `C79_time_false` | Classical.choice, Quot.sound, propext |
| `C79_names_false` | Classical.choice, Quot.sound, propext |
| `C79_chain_false` | Classical.choice, Quot.sound, propext |
| `C79_once_false` | Classical.choice, Quot.sound, propext |
| `C79_step_partial` | Classical.choice, Quot.sound, propext |
| `C79_exists_partial` | Quot.sound, propext |
| `C80_estimate_full_false` | Classical.choice, Quot.sound, propext |
| `C80_estimate_reached` | Classical.choice, Quot.sound, propext |
| `C80_nonState_full_false` | Quot.sound, propext |
| `C80_errors` | Classical.choice, Quot.sound, propext |
| `C80_difference` | Classical.choice, Quot.sound, propext |
| `C80_estimate_partial` | Classical.choice, Quot.sound, propext |
| `C80_accept` | Classical.choice, Quot.sound, propext |
| `C80_nonState_partial` | Quot.sound, propext |
| `C81_full_false` | Classical.choice, Quot.sound, propext |
| `C81_chain_wrong` | Classical.choice, Quot.sound, propext |
| `C81_exists` | Classical.choice, Quot.sound, propext |
| `C81_result` | Classical.choice, Quot.sound, propext |
| `C81_step_partial` | Classical.choice, Quot.sound, propext |
| `C81_sequential` | Classical.choice, Quot.sound, propext |
| `C82_full_false` | Classical.choice, Quot.sound, propext |
| `C82_extract_wrong` | Classical.choice, Quot.sound, propext |
| `C82_views_wrong` | propext |
| `C82_views_partial` | Quot.sound, propext |
| `C82_extract_partial` | Quot.sound, propext |
| `C82_source` | propext |
| `C83_full_false` | Quot.sound, propext |
| `C83_view_never` | Quot.sound, propext |
| `C83_view_undefined` | Quot.sound, propext |
| `C83_extract_partial` | Classical.choice, Quot.sound, propext |
| `C83_step` | Classical.choice, Quot.sound, propext |
| `C83_unique` | none |
| `C84_full_false` | Classical.choice, Quot.sound, propext |
| `C84_insert_wrong` | Quot.sound, propext |
| `C84_insert_result` | Classical.choice, Quot.sound, propext |
| `C84_infer_partial` | Quot.sound, propext |
| `C84_view_partial` | Classical.choice, Quot.sound, propext |
| `C84_insert_partial` | Classical.choice, Quot.sound, propext |
| `C84_size` | Quot.sound, propext |
| `C85_full_false` | Classical.choice, Quot.sound, propext |
| `C85_reduction_fails` | propext |
| `C85_reduction_missing` | Classical.choice, Quot.sound, propext |
| `C85_scalar_fails` | propext |
| `C85_algorithm_whole` | Classical.choice, Quot.sound, propext |
| `C85_result_partial` | Classical.choice, Quot.sound, propext |
| `C85_exists_partial` | Classical.choice, Quot.sound, propext |
| `C86_full_false` | Classical.choice, Quot.sound, propext |
| `C86_reduction_zero` | Classical.choice, Quot.sound, propext |
| `C86_algorithm_none` | Classical.choice, Quot.sound, propext |
| `C86_pass` | Classical.choice, Quot.sound, propext |
| `C86_both_partial` | Classical.choice, Quot.sound, propext |
| `C87_full_false` | Classical.choice, Quot.sound, propext |
| `C87_inductions_wrong` | Classical.choice, Quot.sound, propext |
| `C87_ranges_fail` | Classical.choice, Quot.sound, propext |
| `C87_reduction_fails` | Classical.choice, Quot.sound, propext |
| `C87_reduction_wrong` | Classical.choice, Quot.sound, propext |
| `C87_result_wrong` | Classical.choice, Quot.sound, propext |
| `C87_calls_partial` | Classical.choice, Quot.sound, propext |
| `C88_replaced` | Classical.choice, Quot.sound, propext |
| `C89_full_false` | Classical.choice, Quot.sound, propext |
| `C89_full_false_left` | Classical.choice, Quot.sound, propext |
| `C89_array_loops` | Classical.choice, Quot.sound, propext |
| `C89_never_ends` | Classical.choice, Quot.sound, propext |
| `C89_read_left` | propext |
| `C89_values_partial` | Classical.choice, Quot.sound, propext |
| `C89_ends_partial` | Classical.choice, Quot.sound, propext |
| `C89_partial` | Classical.choice, Quot.sound, propext |
| `C90_full_false` | Classical.choice, Quot.sound, propext |
| `C90_full_false_reader` | Quot.sound, propext |
| `C90_full_false_reversed` | Quot.sound, propext |
| `C90_cycle` | propext |
| `C90_complete_partial` | Classical.choice, Quot.sound, propext |
| `C90_reads_partial` | Classical.choice, Quot.sound, propext |
| `C90_start_scc_partial` | Classical.choice, Quot.sound, propext |
| `C90_start_start_partial` | Classical.choice, Quot.sound, propext |
| `C90_writes_partial` | Classical.choice, Quot.sound, propext |
| `C90_warned_partial` | Classical.choice, Quot.sound, propext |
| `C90_partial` | Classical.choice, Quot.sound, propext |
| `C90_reversed` | Quot.sound, propext |
| `C91_full_false` | Classical.choice, Quot.sound, propext |
| `C91_defined_partial` | Classical.choice, Quot.sound, propext |
| `C91_starts_partial` | Classical.choice, Quot.sound, propext |
| `C91_count_partial` | Classical.choice, Quot.sound, propext |
| `C91_changes_partial` | Classical.choice, Quot.sound, propext |
| `C91_valid_partial` | Classical.choice, Quot.sound, propext |
| `C91_partial` | Classical.choice, Quot.sound, propext |
| `C91_inserted_partial` | Classical.choice, Quot.sound, propext |
| `C92_full_false` | Quot.sound, propext |
| `C92_full_false_both` | Quot.sound, propext |
| `C92_full_false_zero` | Quot.sound, propext |
| `C92_defined_partial` | Classical.choice, Quot.sound, propext |
| `C92_kept_partial` | Quot.sound, propext |
| `C92_dynamic_partial` | Quot.sound, propext |
| `C92_initial_partial` | Classical.choice, Quot.sound, propext |
| `C92_valid_partial` | Quot.sound, propext |
| `C92_guesses_partial` | Classical.choice, Quot.sound, propext |
| `C92_partial` | Classical.choice, Quot.sound, propext |
| `C92_rank` | propext |
| `C92_rank_binding` | propext |
| `C92_each` | none |
| `C93_capture` | propext |
| `C93_full_false` | Classical.choice, Quot.sound, propext |
| `C93_full_false_element` | Classical.choice, Quot.sound, propext |
| `C93_full_false_region` | Classical.choice, Quot.sound, propext |
| `C93_full_false_return` | Classical.choice, Quot.sound, propext |
| `C93_full_false_output` | Classical.choice, Quot.sound, propext |
| `C93_full_false_nullary` | Classical.choice, Quot.sound, propext |
| `C93_full_false_named` | Classical.choice, Quot.sound, propext |
| `C93_chosen` | Quot.sound, propext |
| `C93_partial` | Classical.choice, Quot.sound, propext |
| `C94_full_false` | Classical.choice, Quot.sound, propext |
| `C94_view_false` | Quot.sound, propext |
| `C94_view_false_alarm` | Classical.choice, Quot.sound, propext |
| `C94_insert_false` | Quot.sound, propext |
| `C94_insert_false_scalar` | Quot.sound, propext |
| `C94_insert_false_unbounded` | Classical.choice, Quot.sound, propext |
| `C94_indexed_ub` | Classical.choice, Quot.sound, propext |
| `C94_indexed_partial` | Classical.choice, Quot.sound, propext |
| `C94_dimension_partial` | Quot.sound, propext |
| `C94_divEW_partial` | Quot.sound, propext |
| `C94_domain_partial` | Classical.choice, Quot.sound, propext |
| `C94_view_partial` | Classical.choice, Quot.sound, propext |
| `C94_view_scalar_partial` | Quot.sound, propext |
| `C94_view_exact_partial` | Classical.choice, Quot.sound, propext |
| `C94_insert_partial` | Classical.choice, Quot.sound, propext |
| `C95_full_false` | Quot.sound, propext |
| `C95_full_false_ranges` | Classical.choice, Quot.sound, propext |
| `C95_indices` | Classical.choice, Quot.sound, propext |
| `C95_backward` | Classical.choice, Quot.sound, propext |
| `C95_independent` | Classical.choice, Quot.sound, propext |
| `C95_scalar` | propext |
| `C95_mismatch` | Quot.sound, propext |
| `C95_partial` | Classical.choice, Quot.sound, propext |
| `C96_full_false` | Classical.choice, Quot.sound, propext |
| `C96_product_false` | Classical.choice, Quot.sound, propext |
| `C96_scalar_false` | Classical.choice, Quot.sound, propext |
| `C96_subEW_false` | Classical.choice, Quot.sound, propext |
| `C96_right_false` | Classical.choice, Quot.sound, propext |
| `C96_div_false` | Classical.choice, Quot.sound, propext |
| `C96_size_false` | Classical.choice, Quot.sound, propext |
| `C96_pow_false` | Classical.choice, Quot.sound, propext |
| `C96_commute_scalar_false` | Classical.choice, Quot.sound, propext |
| `C96_commute_matrix_false` | Classical.choice, Quot.sound, propext |
| `C96_pow_exact` | Classical.choice, Quot.sound, propext |
| `C96_sizes` | Classical.choice, Quot.sound, propext |
| `C96_tensors_partial` | Classical.choice, Quot.sound, propext |
| `C96_arrays_partial` | Classical.choice, Quot.sound, propext |
| `C96_divEW_partial` | Classical.choice, Quot.sound, propext |
| `C96_scalar_partial` | Classical.choice, Quot.sound, propext |
| `C96_subEW_partial` | Classical.choice, Quot.sound, propext |
| `C96_product_partial` | Classical.choice, Quot.sound, propext |
| `C96_product_zero_partial` | Classical.choice, Quot.sound, propext |
| `C96_transpose_partial` | Quot.sound, propext |
| `C96_pow_partial` | Classical.choice, Quot.sound, propext |
| `C96_commute_partial` | Classical.choice, Quot.sound, propext |
| `C97_full_false` | Classical.choice, Quot.sound, propext |
| `C97_zero_false` | Classical.choice, Quot.sound, propext |
| `C97_matrix_false` | Classical.choice, Quot.sound, propext |
| `C97_type_false` | propext |
| `C97_div_type_false` | propext |
| `C97_mulEW_false` | Classical.choice, Quot.sound, propext |
| `C97_neg_partial` | Classical.choice, Quot.sound, propext |
| `C97_div_partial` | Classical.choice, Quot.sound, propext |
| `C97_div_type_partial` | Quot.sound, propext |
| `C97_factor_partial` | Classical.choice, Quot.sound, propext |
| `C97_mul_partial` | Classical.choice, Quot.sound, propext |
| `C97_elementwise_partial` | Classical.choice, Quot.sound, propext |
| `C97_rank` | Classical.choice, Quot.sound, propext |
| `C98_full_false` | Classical.choice, Quot.sound, propext |
| `C98_default_false` | Classical.choice, Quot.sound, propext |
| `C98_names_false` | propext |
| `C98_template_partial` | Classical.choice, Quot.sound, propext |
| `C98_first_partial` | Classical.choice, Quot.sound, propext |
| `C98_second_partial` | Classical.choice, Quot.sound, propext |
| `C99_least` | Classical.choice, Quot.sound, propext |
| `C99_order` | Classical.choice, Quot.sound, propext |
| `C99_internal` | Quot.sound, propext |
| `C99_partition` | Classical.choice, Quot.sound, propext |
| `C99_square_partial` | Classical.choice, Quot.sound, propext |
| `C99_chain_false` | propext |
| `C99_chain_reduced_false` | Quot.sound, propext |
| `C99_full_false` | Quot.sound, propext |
| `C100_jacobian_partial` | Classical.choice, Quot.sound, propext |
| `C100_template` | Classical.choice, Quot.sound, propext |
| `C100_created` | Classical.choice, Quot.sound, propext |
| `C100_capture_false` | Classical.choice, Quot.sound, propext |
| `C100_full_false` | Classical.choice, Quot.sound, propext |
| `C101_replace_partial` | Classical.choice, Quot.sound, propext |
| `C101_terminates` | Classical.choice, Quot.sound, propext |
| `C101_full_false` | Classical.choice, Quot.sound, propext |
| `C102_reads_partial` | Classical.choice, Quot.sound, propext |
| `C102_exact_partial` | Classical.choice, Quot.sound, propext |
| `C102_full_false` | Classical.choice, Quot.sound, propext |
| `C102_reals_missed` | Classical.choice, Quot.sound, propext |
| `C102_view_missed` | Classical.choice, Quot.sound, propext |
| `C102_two_undefined` | Quot.sound, propext |
| `C102_three_missed` | Classical.choice, Quot.sound, propext |
| `C103_distinct` | Classical.choice, Quot.sound, propext |
| `C103_path_partial` | Classical.choice, Quot.sound, propext |
| `C103_several_partial` | Classical.choice, Quot.sound, propext |
| `C103_full_false` | Quot.sound, propext |
| `C103_sum_wrong` | Quot.sound, propext |
| `C103_cast_wrong` | Quot.sound, propext |
| `C104_ida_partial` | Classical.choice, Quot.sound, propext |
| `C104_kinsol_partial` | Classical.choice, Quot.sound, propext |
| `C104_operations_partial` | Quot.sound, propext |
| `C104_rounding_wrong` | propext |
| `C104_reduction_missed` | Quot.sound, propext |
| `C104_full_false` | Quot.sound, propext |
| `C104_kinsol_undefined` | Quot.sound, propext |
| `C105_set_partial` | Classical.choice, Quot.sound, propext |
| `C105_variable_partial` | Classical.choice, Quot.sound, propext |
| `C105_sets_partial` | Classical.choice, Quot.sound, propext |
| `C105_variables_partial` | Classical.choice, Quot.sound, propext |
| `C105_sets_text_partial` | Classical.choice, Quot.sound, propext |
| `C105_variables_text_partial` | Classical.choice, Quot.sound, propext |
| `C105_schedules` | Classical.choice, Quot.sound, propext |
| `C105_full_false` | Classical.choice, Quot.sound, propext |
| `C105_scalar_wrong` | propext |
| `C105_unnamed_wrong` | propext |
| `C105_emptied_wrong` | propext |
| `C106_inverse_partial` | Quot.sound, propext |
| `C106_inverse_full_false` | none |
| `C106_indices` | Quot.sound, propext |
| `C106_equal` | Classical.choice, Quot.sound, propext |
| `C106_hash_wrong` | propext |
| `C106_roundtrip` | Classical.choice, Quot.sound, propext |
| `C106_text_partial` | Classical.choice, Quot.sound, propext |
| `C106_text_full_false` | Quot.sound, propext |
| `C106_order_wrong` | Classical.choice, Quot.sound, propext |
| `C107_calls` | Classical.choice, Quot.sound, propext |
| `C107_variables` | Classical.choice, Quot.sound, propext |
| `C107_single_partial` | Classical.choice, Quot.sound, propext |
| `C107_single_full_false` | Classical.choice, Quot.sound, propext |
| `C107_compare_wrong` | Classical.choice, Quot.sound, propext |
| `C108_matching_partial` | Classical.choice, Quot.sound, propext |
| `C108_model_partial` | Classical.choice, Quot.sound, propext |
| `C108_scalar_partial` | Classical.choice, Quot.sound, propext |
| `C108_instances` | Classical.choice, Quot.sound, propext |
| `C108_full_false` | Classical.choice, Quot.sound, propext |
| `C108_empty_wrong` | Classical.choice, Quot.sound, propext |
| `C109_unmatched` | Classical.choice, Quot.sound, propext |
| `C109_accesses_partial` | Classical.choice, Quot.sound, propext |
| `C109_scalar_variable_partial` | Classical.choice, Quot.sound, propext |
| `C109_scalar_equation_partial` | Classical.choice, Quot.sound, propext |
| `C109_one_access_partial` | Classical.choice, Quot.sound, propext |
| `C109_no_write` | Classical.choice, Quot.sound, propext |
| `C109_read_lost` | Classical.choice, Quot.sound, propext |
| `C109_full_false` | Classical.choice, Quot.sound, propext |
| `C109_second_false` | Classical.choice, Quot.sound, propext |
| `C110_detection_partial` | Classical.choice, Quot.sound, propext |
| `C110_scalar_partial` | Classical.choice, Quot.sound, propext |
| `C110_ready` | Classical.choice, Quot.sound, propext |
| `C110_pipeline_partial` | Classical.choice, Quot.sound, propext |
| `C110_scalar_pipeline_partial` | Classical.choice, Quot.sound, propext |
| `C110_clone_wrong` | Classical.choice, Quot.sound, propext |
| `C110_full_false` | Classical.choice, Quot.sound, propext |
| `C111_describes_partial` | Classical.choice, Quot.sound, propext |
| `C111_made` | Classical.choice, Quot.sound, propext |
| `C111_single_partial` | Classical.choice, Quot.sound, propext |
| `C111_reserved_wrong` | Quot.sound, propext |
| `C111_three_ub` | propext |
| `C111_full_false` | Classical.choice, Quot.sound, propext |
| `C112_keeps_partial` | Classical.choice, Quot.sound, propext |
| `C112_restrict` | Classical.choice, Quot.sound, propext |
| `C112_induction_fails` | Classical.choice, Quot.sound, propext |
| `C112_order_matters` | Classical.choice, Quot.sound, propext |
| `C112_full_false` | Classical.choice, Quot.sound, propext |
| `C113_calls_partial` | Classical.choice, Quot.sound, propext |
| `C113_names_partial` | Classical.choice, Quot.sound, propext |
| `C113_runtime_partial` | Classical.choice, Quot.sound, propext |
| `C113_inverse_fails` | Classical.choice, Quot.sound, propext |
| `C113_runtime_clash` | Quot.sound, propext |
| `C113_class_clash` | Quot.sound, propext |
| `C113_inverse_dropped` | Quot.sound, propext |
| `C113_full_false` | Quot.sound, propext |
| `C114_set_partial` | Quot.sound, propext |
| `C114_deep_partial` | Quot.sound, propext |
| `C114_record_partial` | Quot.sound, propext |
| `C114_values` | Quot.sound, propext |
| `C114_record_results` | Quot.sound, propext |
| `C114_results_partial` | Quot.sound, propext |
| `C114_get_partial` | propext |
| `C114_nested_get_fails` | propext |
| `C114_nested_set_fails` | propext |
| `C114_array_set_fails` | Quot.sound, propext |
| `C114_deep_wrong` | Quot.sound, propext |
| `C114_deeper_undefined` | propext |
| `C114_results_wrong` | propext |
| `C114_full_false` | propext |
| `C115_elements_partial` | Classical.choice, Quot.sound, propext |
| `C115_empty_undefined` | Quot.sound, propext |
| `C115_fill` | Classical.choice, Quot.sound, propext |
| `C115_copy` | Classical.choice, Quot.sound, propext |
| `C115_view_partial` | Classical.choice, Quot.sound, propext |
| `C115_row_undefined` | Classical.choice, Quot.sound, propext |
| `C115_fixed_undefined` | propext |
| `C115_merge_partial` | propext |
| `C115_merge_fails` | propext |
| `C115_access` | Quot.sound, propext |
| `C115_full_false` | propext |
| `C116_reads_partial` | Classical.choice, Quot.sound, propext |
| `C116_column` | Quot.sound, propext |
| `C116_middle` | Quot.sound, propext |
| `C116_full_false` | Quot.sound, propext |
| `C117_arguments_partial` | Classical.choice, Quot.sound, propext |
| `C117_casts` | Quot.sound, propext |
| `C117_count` | Quot.sound, propext |
| `C117_mismatch` | Quot.sound, propext |
| `C117_indices` | Quot.sound, propext |
| `C117_condition` | Quot.sound |
| `C117_names_lost` | Quot.sound, propext |
| `C117_record_partial` | Quot.sound, propext |
| `C117_record_undefined` | Quot.sound, propext |
| `C117_record_mixed_undefined` | Classical.choice, Quot.sound, propext |
| `C117_named` | Quot.sound, propext |
| `C117_default` | propext |
| `C117_full_false` | Quot.sound, propext |
| `C118_call_partial` | Classical.choice, Quot.sound, propext |
| `C118_cells` | Classical.choice, Quot.sound, propext |
| `C118_truncated` | Classical.choice, Quot.sound, propext |
| `C118_slice` | Classical.choice, Quot.sound, propext |
| `C118_slice_received` | propext |
| `C118_boolean` | propext |
| `C118_language` | none |
| `C118_declared` | Classical.choice, Quot.sound, propext |
| `C118_full_false` | Quot.sound, propext |
| `C119_call_partial` | Classical.choice, Quot.sound, propext |
| `C119_element` | Quot.sound, propext |
| `C119_declared` | Quot.sound, propext |
| `C119_implicit` | Classical.choice, Quot.sound, propext |
| `C119_outputs` | propext |
| `C119_full_false` | Quot.sound, propext |
| `C120_run_partial` | Quot.sound, propext |
| `C120_live` | Quot.sound, propext |
| `C120_outside` | propext |
| `C120_create_partial` | Classical.choice, Quot.sound, propext |
| `C120_verify` | Quot.sound, propext |
| `C120_dynamic` | Quot.sound, propext |
| `C120_expression` | Quot.sound, propext |
| `C120_mixed` | Quot.sound, propext |
| `C120_released` | Quot.sound, propext |
| `C120_overwritten` | Quot.sound, propext |
| `C120_full_false` | Quot.sound, propext |
| `C121_decls_partial` | Classical.choice, Quot.sound, propext |
| `C121_marco` | Classical.choice, Quot.sound, propext |
| `C121_reads` | Classical.choice, Quot.sound, propext |
| `C121_modification` | Classical.choice, Quot.sound, propext |
| `C121_injective` | Classical.choice, Quot.sound, propext |
| `C121_number_first` | Classical.choice, Quot.sound, propext |
| `C121_redeclare` | Classical.choice, Quot.sound, propext |
| `C121_after_name` | Classical.choice, Quot.sound, propext |
| `C121_full_false` | Classical.choice, Quot.sound, propext |
