# Axioms of the property theorems

Output of `#print axioms` for every theorem named in MANIFEST.json, grouped by result.

## no axioms (4 theorems)

* `Scotch.C27_labels_refused`
* `Scotch.Dist.C42_failure_missed`
* `Scotch.Memory.C49_offset`
* `Scotch.C59_term_oob`

## `propext` (24 theorems)

* `Scotch.C07_hcub_accepts_too_much`
* `Scotch.C09_meshX_not_manhattan`
* `Scotch.C11_negative_accepted`
* `Scotch.C12_tleaf_not_inclusion`
* `Scotch.Graph.C13_check_overflows`
* `Scotch.Graph.C15_base_shared_arcs`
* `Scotch.Graph.C16_induceList_duplicates`
* `Scotch.Coarsen.C19_wrong_count`
* `Scotch.HOrder.C26_bl_endless`
* `Scotch.HOrder.C26_empty_list`
* `Scotch.Bipart.C28_fm_pick`
* `Scotch.Kmap.C31_untied`
* `Scotch.Kmap.C31_untied_one`
* `Scotch.Kmap.C31_fixed_negative`
* `Scotch.Kmap.C31_failure_oob`
* `Scotch.Kmap.C31_subgraph_oob`
* `Scotch.Kmap.C31_subgraph_wrong`
* `Scotch.Fibo.C32_degree_bound_needed`
* `Scotch.Gain.C33_next_misses_last_class`
* `Scotch.Gain.C33_empty_macro_wrong`
* `Scotch.Memory.C49_group_wraps`
* `Scotch.C57_oob`
* `Scotch.C57_failure_missed`
* `Scotch.C57_columns_not`

## `Quot.sound`, `propext` (21 theorems)

* `Scotch.C04_bounded`
* `Scotch.C04_bounded_unsigned`
* `Scotch.C04_reset_reproduces`
* `Scotch.C04_seed_deterministic`
* `Scotch.C04_step_injective`
* `Scotch.C06_var_overflow`
* `Scotch.C09_metric`
* `Scotch.HOrder.C26_cc_inside`
* `Scotch.HOrder.C26_cp_inside`
* `Scotch.HOrder.C26_leaf_failure`
* `Scotch.HOrder.C26_no_else`
* `Scotch.Thread.C35_reduce_default`
* `Scotch.Thread.C35_shared_cell_is_wrong`
* `Scotch.Ctx.C36_letters`
* `Scotch.MapIO.C41_saved_file`
* `Scotch.Memory.C49_accounting`
* `Scotch.Kmap.C63_check_wrong`
* `Scotch.Str.C67_subst`
* `Scotch.Str.C67_absent`
* `Scotch.HOrder.C71_errors`
* `Scotch.HOrder.C71_endless`

## `Classical.choice`, `Quot.sound`, `propext` (285 theorems)

* `Scotch.C01_save_load_partial`
* `Scotch.C01_list_partial`
* `Scotch.C01_load_iff`
* `Scotch.C01_most_negative_overflows`
* `Scotch.C01_statement_false`
* `Scotch.C02_sort`
* `Scotch.C02_intSort1asc1`
* `Scotch.C02_intSort2asc1`
* `Scotch.C02_intSort2asc2`
* `Scotch.C03_intPerm`
* `Scotch.C03_intAscn`
* `Scotch.C04_save_load`
* `Scotch.C04_never_zero`
* `Scotch.C04_seed_nonzero`
* `Scotch.C04_spawn_nonzero`
* `Scotch.C05_distribution`
* `Scotch.C06_cmplt`
* `Scotch.C06_cmpltw`
* `Scotch.C06_var`
* `Scotch.C07_hcub`
* `Scotch.C07_vhcub_dist`
* `Scotch.C08_meshX`
* `Scotch.C08_mesh2`
* `Scotch.C08_mesh3`
* `Scotch.C09_mesh_dist`
* `Scotch.C09_torus_dist`
* `Scotch.C09_meshX_partial`
* `Scotch.C10_tleaf`
* `Scotch.C10_ltleaf`
* `Scotch.C11_numbers_partial`
* `Scotch.C11_var`
* `Scotch.C59_term_not`
* `Scotch.C12_incl`
* `Scotch.C12_tleaf_partial`
* `Scotch.Graph.C13_check_sound`
* `Scotch.Graph.C13_check_safe`
* `Scotch.Graph.C14_check_complete`
* `Scotch.Graph.C14_check_iff`
* `Scotch.Graph.C15_base`
* `Scotch.Graph.disjoint_of_compact`
* `Scotch.Graph.C16_induceList`
* `Scotch.Graph.C16_inducePart`
* `Scotch.Graph.C17_save_load`
* `Scotch.Graph.C17_largest_label`
* `Scotch.Graph.C18_load_safe_partial`
* `Scotch.Graph.C18_negative_label`
* `Scotch.Graph.C18_negative_end`
* `Scotch.Graph.C18_statement_false`
* `Scotch.Coarsen.C19_sequential`
* `Scotch.Coarsen.C19_threads`
* `Scotch.Coarsen.C19_coarsening`
* `Scotch.Coarsen.C19_conserves`
* `Scotch.Coarsen.C19_hash_overflow`
* `Scotch.Match.C20_sequential`
* `Scotch.Match.C20_threads_progress`
* `Scotch.Match.C20_threads`
* `Scotch.Color.C21_partial`
* `Scotch.Color.C21_generator_partial`
* `Scotch.Color.C21_monotone`
* `Scotch.Color.C21_not_proper`
* `Scotch.C22_inverse_permutation`
* `Scotch.C22_double_inverse`
* `Scotch.C23_orderCheck_iff_valid`
* `Scotch.C24_orderRang`
* `Scotch.C24_ranges_increasing`
* `Scotch.C25_orderTree`
* `Scotch.HOrder.C26_graphOrder`
* `Scotch.HOrder.C26_strategy`
* `Scotch.HOrder.C26_induce`
* `Scotch.HOrder.C26_separation`
* `Scotch.HOrder.C26_compressed`
* `Scotch.HOrder.C26_bl_inside`
* `Scotch.HOrder.C26_hd_isolated`
* `Scotch.HOrder.C26_induced_graph`
* `Scotch.C27_saved_file`
* `Scotch.C27_load`
* `Scotch.C27_round_trip`
* `Scotch.C27_larger_file_faults`
* `Scotch.C27_not_a_permutation_faults`
* `Scotch.Bipart.C28_init`
* `Scotch.Bipart.C28_cost`
* `Scotch.Bipart.C28_check`
* `Scotch.Bipart.C28_store`
* `Scotch.Bipart.C28_zero_partial`
* `Scotch.Bipart.C28_swal_partial`
* `Scotch.Bipart.C28_zr_partial`
* `Scotch.Bipart.C28_gp_partial`
* `Scotch.Bipart.C28_fm_partial`
* `Scotch.Bipart.C28_gg_partial`
* `Scotch.Bipart.C28_fm_gg`
* `Scotch.Bipart.C28_ex`
* `Scotch.Bipart.C28_ml_level`
* `Scotch.Bipart.C28_ml`
* `Scotch.Bipart.C28_strategy`
* `Scotch.Bipart.C28_select`
* `Scotch.Bipart.C28_coarsen`
* `Scotch.Bipart.C28_band_partial`
* `Scotch.Bipart.C28_df_partial`
* `Scotch.Bipart.C28_zero_wrong`
* `Scotch.Bipart.C28_swal_wrong`
* `Scotch.Bipart.C28_gp_wrong`
* `Scotch.Bipart.C28_zr_wrong`
* `Scotch.Bipart.C28_fm_range_wrong`
* `Scotch.Bipart.C28_gg_pass_wrong`
* `Scotch.Bipart.C28_gg_empty_wrong`
* `Scotch.Bipart.C28_select_wrong`
* `Scotch.Bipart.C28_band_wrong`
* `Scotch.Bipart.C28_df_wrong`
* `Scotch.Bipart.C28_df_nan_wrong`
* `Scotch.Separ.C29_zero`
* `Scotch.Separ.C29_zr`
* `Scotch.Separ.C29_check`
* `Scotch.Separ.C29_check_partial`
* `Scotch.Separ.C29_store`
* `Scotch.Separ.C29_thin`
* `Scotch.Separ.C29_gp`
* `Scotch.Separ.C29_gg`
* `Scotch.Separ.C29_fm_partial`
* `Scotch.Separ.C29_fm`
* `Scotch.Separ.C29_ml_level`
* `Scotch.Separ.C29_ml`
* `Scotch.Separ.C29_band`
* `Scotch.Separ.C29_df`
* `Scotch.Separ.C29_coarse_velo`
* `Scotch.Separ.C29_strategy`
* `Scotch.Separ.C29_select`
* `Scotch.Separ.C29_check_dup`
* `Scotch.Separ.C29_gg_empty`
* `Scotch.Separ.C29_gp_weights`
* `Scotch.Separ.C29_fm_load_wrong`
* `Scotch.Separ.C29_fm_full_wrong`
* `Scotch.Separ.C29_df_wrong`
* `Scotch.Separ.C30_cover`
* `Scotch.Separ.C30_minimum_partial`
* `Scotch.Separ.C30_not_minimum`
* `Scotch.Separ.C30_separate_partial`
* `Scotch.Separ.C30_separate_unit`
* `Scotch.Separ.C30_gp`
* `Scotch.Separ.C30_delta_wrong`
* `Scotch.Kmap.C31_map`
* `Scotch.Kmap.C31_mapFixed_partial`
* `Scotch.Kmap.C31_part`
* `Scotch.Kmap.C31_partFixed_partial`
* `Scotch.Kmap.C31_part_gp`
* `Scotch.Kmap.C31_fixed_loops`
* `Scotch.Fibo.C32_history`
* `Scotch.Gain.C33_history`
* `Scotch.Gain.C33_visit_partial`
* `Scotch.Thread.C34_barrier`
* `Scotch.Thread.C34_serial`
* `Scotch.Thread.C34_no_deadlock`
* `Scotch.Thread.C35_reduce_canonical_safe`
* `Scotch.Thread.C35_reduce_canonical`
* `Scotch.Thread.C35_reduce_default_safe`
* `Scotch.Thread.C35_scan_canonical_safe`
* `Scotch.Thread.C35_scan_canonical`
* `Scotch.Thread.C35_scan_default`
* `Scotch.Thread.C35_executions_exist`
* `Scotch.Ctx.C36_options`
* `Scotch.Ctx.C36_set_get`
* `Scotch.Ctx.C36_option_set_num`
* `Scotch.Ctx.C36_option_parse`
* `Scotch.Ctx.C36_deterministic_without_seed`
* `Scotch.Mesh.C37_node_graph`
* `Scotch.Mesh.Metis.C38_partial`
* `Scotch.Mesh.Metis.C38_metis`
* `Scotch.Mesh.C38_dual_graph`
* `Scotch.Mesh.Metis.C38_not_exact`
* `Scotch.Mesh.C38_loads_wrong`
* `Scotch.C39_fax`
* `Scotch.C39_fax_partial`
* `Scotch.C39_columns`
* `Scotch.C39_fax_not`
* `Scotch.Band.C40_band`
* `Scotch.Band.C40_diam`
* `Scotch.Band.C40_lvl_unset`
* `Scotch.Band.C40_diam_overflow`
* `Scotch.MapIO.C41_load_partial`
* `Scotch.MapIO.C41_round_trip_partial`
* `Scotch.MapIO.C41_any_file_partial`
* `Scotch.MapIO.C41_based_labels_fault`
* `Scotch.MapIO.C41_empty_graph_refused`
* `Scotch.Dist.C42_ranges`
* `Scotch.Dist.C42_ghost`
* `Scotch.Fold.C43_plan`
* `Scotch.Fold.C43_every_vertex`
* `Scotch.Fold.C43_messages`
* `Scotch.Fold.C43_ranges`
* `Scotch.Fold.C43_renumber`
* `Scotch.Fold.C43_self_message`
* `Scotch.C44_psort`
* `Scotch.C44_intPsort2asc1`
* `Scotch.C45_gcd`
* `Scotch.C46_cmplt`
* `Scotch.C46_hcub`
* `Scotch.C46_mesh`
* `Scotch.C46_tleaf`
* `Scotch.C47_arch_partial`
* `Scotch.C47_save`
* `Scotch.C47_dist_not`
* `Scotch.C47_bad_not`
* `Scotch.C47_load`
* `Scotch.C47_perm_not`
* `Scotch.C47_dom_partial`
* `Scotch.C47_dom_not`
* `Scotch.C47_dom_oob`
* `Scotch.Graph.C48_clone_partial`
* `Scotch.Graph.C48_empty_fails`
* `Scotch.Graph.C48_isolated_oob`
* `Scotch.Memory.C49_group`
* `Scotch.Thread.Pool.C50_order`
* `Scotch.Thread.Pool.C50_complete`
* `Scotch.Thread.Pool.C50_exit`
* `Scotch.Thread.Pool.C50_no_deadlock`
* `Scotch.Mesh.C51_check_partial`
* `Scotch.Mesh.C51_check_exact_partial`
* `Scotch.Mesh.C51_edgenbr_unchecked`
* `Scotch.C52_orderSaveMap`
* `Scotch.C52_orderSaveTree`
* `Scotch.Dist.C53_halo`
* `Scotch.C54_build`
* `Scotch.C54_data`
* `Scotch.HOrder.C55_separates`
* `Scotch.HOrder.C55_list_partial`
* `Scotch.HOrder.C55_list_wrong`
* `Scotch.Kmap.C56_cost`
* `Scotch.Kmap.C56_costFixed_partial`
* `Scotch.C57_tree`
* `Scotch.C57_tree_partial`
* `Scotch.C57_forest`
* `Scotch.C58_build`
* `Scotch.C58_cmplt`
* `Scotch.C58_hcub`
* `Scotch.C58_mesh`
* `Scotch.C58_tleaf`
* `Scotch.C58_nested`
* `Scotch.C58_single_not`
* `Scotch.C59_deco_partial`
* `Scotch.C59_bounds`
* `Scotch.Ovl.C60_part_ovl_partial`
* `Scotch.Ovl.C60_rb`
* `Scotch.Ovl.C60_strategy`
* `Scotch.Ovl.C60_cost`
* `Scotch.Ovl.C60_ml_level`
* `Scotch.Ovl.C60_select_partial`
* `Scotch.Ovl.C60_es_partial`
* `Scotch.Ovl.C60_null_wrong`
* `Scotch.Ovl.C60_subgraph_wrong`
* `Scotch.Ovl.C60_zero_wrong`
* `Scotch.Ovl.C60_select_wrong`
* `Scotch.Ovl.C60_es_wrong`
* `Scotch.Ovl.C61_check`
* `Scotch.Ovl.C61_check_valid_partial`
* `Scotch.Ovl.C61_check_wrong`
* `Scotch.Kmap.C62_strategy_partial`
* `Scotch.Kmap.C62_select_partial`
* `Scotch.Kmap.C62_select_wrong`
* `Scotch.Kmap.C63_check_partial`
* `Scotch.Kmap.C63_check_valid_partial`
* `Scotch.Msep.C64_zero`
* `Scotch.Msep.C64_separate_partial`
* `Scotch.Msep.C64_separate_wrong`
* `Scotch.Msep.C64_strategy_partial`
* `Scotch.Msep.C64_select`
* `Scotch.Msep.C64_select_wrong`
* `Scotch.Msep.C64_store`
* `Scotch.Msep.C64_check_partial`
* `Scotch.Msep.C64_check_wrong`
* `Scotch.Msep.C65_mesh_partial`
* `Scotch.Msep.C65_arcs_partial`
* `Scotch.Msep.C65_nodes_first_wrong`
* `Scotch.Msep.C66_induce_partial`
* `Scotch.Msep.C66_consistent_partial`
* `Scotch.Msep.C66_recorded_partial`
* `Scotch.Msep.C66_arcs_wrong`
* `Scotch.Str.C67_text`
* `Scotch.HOrder.C68_check_partial`
* `Scotch.HOrder.C68_accept_partial`
* `Scotch.HOrder.C68_check_wrong`
* `Scotch.Msep.C69_simple`
* `Scotch.Msep.C69_submesh_partial`
* `Scotch.Msep.C70_check_partial`
* `Scotch.Msep.C70_accept`
* `Scotch.Msep.C70_check_wrong`
* `Scotch.HOrder.C71_split_partial`
