# Axioms used by the theorems named in MANIFEST.json

Output of `#print axioms` for each.

| property | theorem | axioms |
|---|---|---|
| C01 | `AtomTk.C01_frac_roundtrip` | propext, Classical.choice, Quot.sound |
| C01 | `AtomTk.C01_frac_injective` | propext, Classical.choice, Quot.sound |
| C01 | `AtomTk.C01_frac_nonhalf_collide` | propext, Classical.choice, Quot.sound |
| C01 | `AtomTk.C01_none` | propext, Classical.choice, Quot.sound |
| C01 | `AtomTk.C01_decimal` | propext, Classical.choice, Quot.sound |
| C01 | `AtomTk.C01_text` | propext, Classical.choice, Quot.sound |
| C02 | `AtomTk.C02_letter_roundtrip` | propext, Classical.choice, Quot.sound |
| C02 | `AtomTk.C02_letter_roundtrip'` | propext, Classical.choice, Quot.sound |
| C02 | `AtomTk.C02_letToL_domain` | propext, Classical.choice, Quot.sound |
| C02 | `AtomTk.C02_letToL_letters` | propext, Classical.choice, Quot.sound |
| C02 | `AtomTk.C02_floats` | propext, Classical.choice, Quot.sound |
| C02 | `AtomTk.C02_negative_wraps_fails` | propext |
| C02 | `AtomTk.C02_letters_partial` | propext, Quot.sound |
| C03 | `AtomTk.C03_coupling` | propext, Classical.choice, Quot.sound |
| C04 | `AtomTk.C04_LS` | propext, Classical.choice, Quot.sound |
| C04 | `AtomTk.C04_LS_no_letter` | propext, Classical.choice, Quot.sound |
| C04 | `AtomTk.C04_LS_two` | propext, Classical.choice, Quot.sound |
| C05 | `AtomTk.C05_JK` | propext, Classical.choice, Quot.sound |
| C05 | `AtomTk.C05_JK_two` | propext, Classical.choice, Quot.sound |
| C05 | `AtomTk.C05_JK_no_core` | propext, Classical.choice, Quot.sound |
| C05 | `AtomTk.C05_unclosed` | propext, Classical.choice, Quot.sound |
| C06 | `AtomTk.C06_LK` | propext, Classical.choice, Quot.sound |
| C06 | `AtomTk.C06_LK_no_ancestor` | propext, Classical.choice, Quot.sound |
| C07 | `AtomTk.C07_JJ_conf` | propext, Classical.choice, Quot.sound |
| C07 | `AtomTk.C07_JJ_term` | propext, Classical.choice, Quot.sound |
| C07 | `AtomTk.C07_JJ_none` | propext, Classical.choice, Quot.sound |
| C07 | `AtomTk.C07_electron_spin_zero` | propext, Classical.choice, Quot.sound |
| C07 | `AtomTk.C07_no_letter` | propext, Classical.choice, Quot.sound |
| C08 | `AtomTk.C08_parity` | propext, Classical.choice, Quot.sound |
| C09 | `AtomTk.C09_names` | propext, Classical.choice, Quot.sound |
| C09 | `AtomTk.C09_names_ambiguous` | propext, Classical.choice, Quot.sound |
| C09 | `AtomTk.C09_missing` | propext, Classical.choice, Quot.sound |
| C10 | `AtomTk.C10_copies_keep` | propext, Classical.choice, Quot.sound |
| C10 | `AtomTk.C10_percentage` | propext, Classical.choice, Quot.sound |
| C10 | `AtomTk.C10_copy_sets` | propext, Classical.choice, Quot.sound |
| C11 | `AtomTk.C11_eq_partial` | propext |
| C11 | `AtomTk.C11_eq_ignores_J_fails` | propext |
| C12 | `AtomTk.C12_multiterm` | propext, Classical.choice, Quot.sound |
| C12 | `AtomTk.C12_copy` | propext, Classical.choice, Quot.sound |
| C12 | `AtomTk.C12_eq_asymmetric_fails` | propext, Classical.choice, Quot.sound |
| C12 | `AtomTk.C12_eq_partial` | propext, Classical.choice, Quot.sound |
| C12 | `AtomTk.C12_eq_term` | propext, Classical.choice, Quot.sound |
| C12 | `AtomTk.C12_terms_dict_loses` | propext, Classical.choice, Quot.sound |
| C13 | `AtomTk.C13_multiplet` | propext, Classical.choice, Quot.sound |
| C14 | `AtomTk.C14_manifold` | propext, Classical.choice, Quot.sound |
| C14 | `AtomTk.C14_total` | propext, Classical.choice, Quot.sound |
| C18 | `AtomTk.C18_defined` | propext, Classical.choice, Quot.sound |
| C18 | `AtomTk.C18_zero` | propext, Classical.choice, Quot.sound |
| C18 | `AtomTk.C18_guards` | propext, Classical.choice, Quot.sound |
| C19 | `AtomTk.C19_centroid` | propext, Classical.choice, Quot.sound |
| C20 | `AtomTk.C20_octupole_fails` | propext, Classical.choice, Quot.sound |
| C20 | `AtomTk.C20_stretched_partial` | propext, Classical.choice, Quot.sound |
| C20 | `AtomTk.C20_octupole_always_off` | propext, Classical.choice, Quot.sound |
| C21 | `AtomTk.C21_magneton` | propext, Classical.choice, Quot.sound |
| C21 | `AtomTk.C21_zero_field` | propext, Classical.choice, Quot.sound |
| C21 | `AtomTk.C21_linear` | propext, Classical.choice, Quot.sound |
| C21 | `AtomTk.C21_sum` | propext, Classical.choice, Quot.sound |
| C22 | `AtomTk.C22_gF` | propext, Classical.choice, Quot.sound |
| C22 | `AtomTk.C22_no_spin` | propext, Classical.choice, Quot.sound |
| C22 | `AtomTk.C22_stretched` | propext, Classical.choice, Quot.sound |
| C23 | `AtomTk.C23_lande_partial` | propext, Classical.choice, Quot.sound |
| C23 | `AtomTk.C23_lande_fails` | propext, Classical.choice, Quot.sound |
| C36 | `AtomTk.C36_enforced_partial` | propext, Classical.choice, Quot.sound |
| C36 | `AtomTk.C36_loop_free` | propext, Classical.choice, Quot.sound |
| C36 | `AtomTk.C36_fails` | propext, Classical.choice, Quot.sound |
| C37 | `AtomTk.C37_first_partial` | propext, Classical.choice, Quot.sound |
| C37 | `AtomTk.C37_leaf_partial` | propext, Classical.choice, Quot.sound |
| C37 | `AtomTk.C37_fails` | propext, Classical.choice, Quot.sound |
| C37 | `AtomTk.C37_no_effect` | propext, Classical.choice, Quot.sound |
| C37 | `AtomTk.C37_up_partial` | propext, Classical.choice, Quot.sound |
| C37 | `AtomTk.C37_down` | propext, Classical.choice, Quot.sound |
| C37 | `AtomTk.C37_sides` | propext, Classical.choice, Quot.sound |
| C37 | `AtomTk.C37_mirror` | propext, Classical.choice, Quot.sound |
| C38 | `AtomTk.C38_fails` | propext, Classical.choice, Quot.sound |
| C38 | `AtomTk.C38_leaf_partial` | propext, Classical.choice, Quot.sound |
| C39 | `AtomTk.C39_only_group` | propext, Classical.choice, Quot.sound |
| C40 | `AtomTk.C40_silent_on_fresh` | propext, Classical.choice, Quot.sound |
| C40 | `AtomTk.C40_fails` | propext, Classical.choice, Quot.sound |
| C40 | `AtomTk.C40_no_false_alarm_partial` | propext, Classical.choice, Quot.sound |
| C16 | `AtomTk.C16_assigned` | propext, Classical.choice, Quot.sound |
| C16 | `AtomTk.C16_kept` | propext, Classical.choice, Quot.sound |
| C16 | `AtomTk.C16_fails` | propext, Classical.choice, Quot.sound |
| C16 | `AtomTk.C16_stale_partial` | propext, Classical.choice, Quot.sound |
| C17 | `AtomTk.C17_rank` | propext, Classical.choice, Quot.sound |
| C17 | `AtomTk.C17_extremes` | propext, Classical.choice, Quot.sound |
| C17 | `AtomTk.C17_once` | propext, Classical.choice, Quot.sound |
| C24 | `AtomTk.C24_rigid` | propext, Classical.choice, Quot.sound |
| C26 | `AtomTk.C26_distance` | propext, Classical.choice, Quot.sound |
| C26 | `AtomTk.C26_order` | propext, Classical.choice, Quot.sound |
| C26 | `AtomTk.C26_constructed` | propext, Classical.choice, Quot.sound |
| C27 | `AtomTk.C27_ends_partial` | propext, Classical.choice, Quot.sound |
| C27 | `AtomTk.C27_constructed_partial` | propext, Classical.choice, Quot.sound |
| C27 | `AtomTk.C27_fails` | propext, Classical.choice, Quot.sound |
| C28 | `AtomTk.C28_partial` | propext, Classical.choice, Quot.sound |
| C28 | `AtomTk.C28_fails` | propext, Classical.choice, Quot.sound |
| C29 | `AtomTk.C29_found_partial` | propext, Classical.choice, Quot.sound |
| C29 | `AtomTk.C29_connects` | propext, Classical.choice, Quot.sound |
| C29 | `AtomTk.C29_fails` | propext, Classical.choice, Quot.sound |
| C31 | `AtomTk.C31_rules_partial` | propext, Classical.choice, Quot.sound |
| C31 | `AtomTk.C31_exclusive` | propext, Classical.choice, Quot.sound |
| C31 | `AtomTk.C31_symmetric` | propext, Classical.choice, Quot.sound |
| C31 | `AtomTk.C31_fails` | propext, Classical.choice, Quot.sound |
| C42 | `AtomTk.C42_neighbours_partial` | propext, Classical.choice, Quot.sound |
| C42 | `AtomTk.C42_mutual` | propext, Classical.choice, Quot.sound |
| C42 | `AtomTk.C42_fails` | propext, Classical.choice, Quot.sound |
| C45 | `AtomTk.C45_container` | propext, Classical.choice, Quot.sound |
| C45 | `AtomTk.C45_delete` | propext, Classical.choice, Quot.sound |
| C46 | `AtomTk.C46_levels_unchanged_partial` | propext, Classical.choice, Quot.sound |
| C46 | `AtomTk.C46_fails` | propext, Classical.choice, Quot.sound |
| C47 | `AtomTk.C47_outside_partial` | propext, Classical.choice, Quot.sound |
| C47 | `AtomTk.C47_poisoned` | propext, Classical.choice, Quot.sound |
| C47 | `AtomTk.C47_fails` | propext, Classical.choice, Quot.sound |
| C49 | `AtomTk.C49_partial` | propext, Classical.choice, Quot.sound |
| C49 | `AtomTk.C49_fails` | propext, Classical.choice, Quot.sound |
| C71 | `AtomTk.C71_free_partial` | propext, Classical.choice, Quot.sound |
| C71 | `AtomTk.C71_consistent_partial` | propext, Classical.choice, Quot.sound |
| C71 | `AtomTk.C71_fails` | propext, Classical.choice, Quot.sound |
| C72 | `AtomTk.C72_never` | propext |
| C72 | `AtomTk.C72_raises` | propext, Classical.choice, Quot.sound |
| C72 | `AtomTk.C72_fails` | propext, Classical.choice, Quot.sound |
| C43 | `AtomTk.C43_distribution_partial` | propext, Classical.choice, Quot.sound |
| C43 | `AtomTk.C43_zero_partial` | propext, Classical.choice, Quot.sound |
| C43 | `AtomTk.C43_oriented_partial` | propext, Classical.choice, Quot.sound |
| C43 | `AtomTk.C43_raises_partial` | propext, Classical.choice, Quot.sound |
| C43 | `AtomTk.C43_units` | propext, Classical.choice, Quot.sound |
| C43 | `AtomTk.C43_missing_fails` | propext, Classical.choice, Quot.sound |
| C43 | `AtomTk.C43_lists_fails` | propext, Classical.choice, Quot.sound |
| C44 | `AtomTk.C44_lifetime` | propext, Classical.choice, Quot.sound |
| C44 | `AtomTk.C44_missing` | propext, Classical.choice, Quot.sound |
| C44 | `AtomTk.C44_channel` | propext, Classical.choice, Quot.sound |
| C48 | `AtomTk.C48_never` | propext, Classical.choice, Quot.sound |
| C48 | `AtomTk.C48_none` | propext, Classical.choice, Quot.sound |
| C48 | `AtomTk.C48_returns_partial` | propext, Classical.choice, Quot.sound |
| C48 | `AtomTk.C48_quiet_partial` | propext, Classical.choice, Quot.sound |
| C48 | `AtomTk.C48_fails` | propext, Classical.choice, Quot.sound |
| C50 | `AtomTk.C50_loaded_partial` | propext, Classical.choice, Quot.sound |
| C50 | `AtomTk.C50_more` | propext, Classical.choice, Quot.sound |
| C50 | `AtomTk.C50_abort` | propext, Classical.choice, Quot.sound |
| C50 | `AtomTk.C50_fails` | propext, Classical.choice, Quot.sound |
| C50 | `AtomTk.C50_no_term` | propext, Classical.choice, Quot.sound |
| C51 | `AtomTk.C51_missing_partial` | propext, Classical.choice, Quot.sound |
| C51 | `AtomTk.C51_unknown_partial` | propext, Classical.choice, Quot.sound |
| C51 | `AtomTk.C51_loaded_partial` | propext, Classical.choice, Quot.sound |
| C51 | `AtomTk.C51_fails` | propext, Classical.choice, Quot.sound |
| C52 | `AtomTk.Strengths.C52_square` | propext, Classical.choice, Quot.sound |
| C52 | `AtomTk.Strengths.C52_nonneg` | propext, Classical.choice, Quot.sound |
| C52 | `AtomTk.Strengths.C52_selection` | propext, Classical.choice, Quot.sound |
| C52 | `AtomTk.Strengths.C52_six` | propext, Classical.choice, Quot.sound |
| C53 | `AtomTk.Strengths.C53_factor_partial` | propext, Classical.choice, Quot.sound |
| C53 | `AtomTk.Strengths.C53_equal_partial` | propext, Classical.choice, Quot.sound |
| C53 | `AtomTk.Strengths.C53_differs` | propext, Classical.choice, Quot.sound |
| C53 | `AtomTk.Strengths.C53_fails` | propext, Classical.choice, Quot.sound |
| C54 | `AtomTk.Strengths.C54_square_partial` | propext, Classical.choice, Quot.sound |
| C54 | `AtomTk.Strengths.C54_length` | propext, Classical.choice, Quot.sound |
| C54 | `AtomTk.Strengths.C54_mean` | propext, Classical.choice, Quot.sound |
| C54 | `AtomTk.Strengths.C54_magnetic` | propext, Classical.choice, Quot.sound |
| C54 | `AtomTk.Strengths.C54_fails` | propext, Classical.choice, Quot.sound |
| C55 | `AtomTk.Strengths.C55_mean` | propext, Classical.choice, Quot.sound |
| C55 | `AtomTk.Strengths.C55_between` | propext, Classical.choice, Quot.sound |
| C55 | `AtomTk.Strengths.C55_rest` | propext, Classical.choice, Quot.sound |
| C55 | `AtomTk.Strengths.C55_geom_partial` | propext, Classical.choice, Quot.sound |
| C55 | `AtomTk.Strengths.C55_fails` | propext, Classical.choice, Quot.sound |
| C56 | `AtomTk.Strengths.C56_jj` | propext, Classical.choice, Quot.sound |
| C56 | `AtomTk.Strengths.C56_jk` | propext, Classical.choice, Quot.sound |
| C56 | `AtomTk.Strengths.C56_lk` | propext, Classical.choice, Quot.sound |
| C56 | `AtomTk.Strengths.C56_returns` | propext, Classical.choice, Quot.sound |
| C57 | `AtomTk.Strengths.C57_calls_partial` | propext, Classical.choice, Quot.sound |
| C57 | `AtomTk.Strengths.C57_general` | propext, Quot.sound |
| C57 | `AtomTk.Strengths.C57_vectors` | propext, Classical.choice, Quot.sound |
| C57 | `AtomTk.Strengths.C57_fails` | propext, Classical.choice, Quot.sound |
| C58 | `AtomTk.Strengths.C58_three_partial` | propext, Classical.choice, Quot.sound |
| C58 | `AtomTk.Strengths.C58_six_partial` | propext, Classical.choice, Quot.sound |
| C58 | `AtomTk.Strengths.C58_returns` | propext, Classical.choice, Quot.sound |
| C58 | `AtomTk.Strengths.C58_rejected` | propext, Classical.choice, Quot.sound |
| C58 | `AtomTk.Strengths.C58_exchange3` | propext, Classical.choice, Quot.sound |
| C58 | `AtomTk.Strengths.C58_exchange6` | propext, Classical.choice, Quot.sound |
| C58 | `AtomTk.Strengths.C58_fails` | propext, Classical.choice, Quot.sound |
| C15 | `AtomTk.C15_fine_partial` | propext, Classical.choice, Quot.sound |
| C15 | `AtomTk.C15_hyperfine_partial` | propext, Classical.choice, Quot.sound |
| C15 | `AtomTk.C15_zeeman_partial` | propext, Classical.choice, Quot.sound |
| C15 | `AtomTk.C15_complete_partial` | propext, Classical.choice, Quot.sound |
| C15 | `AtomTk.C15_mJ_partial` | propext, Classical.choice, Quot.sound |
| C15 | `AtomTk.C15_fails` | propext, Classical.choice, Quot.sound |
| C25 | `AtomTk.C25_current_partial` | propext, Classical.choice, Quot.sound |
| C25 | `AtomTk.C25_fails` | propext, Classical.choice, Quot.sound |
| C30 | `AtomTk.C30_named_partial` | propext, Classical.choice, Quot.sound |
| C30 | `AtomTk.C30_exchanged_partial` | propext, Classical.choice, Quot.sound |
| C30 | `AtomTk.C30_fails` | propext, Classical.choice, Quot.sound |
| C30 | `AtomTk.C30_zeeman_partial` | propext, Classical.choice, Quot.sound |
| C32 | `AtomTk.C32_sound_partial` | propext, Classical.choice, Quot.sound |
| C32 | `AtomTk.C32_complete_partial` | propext, Classical.choice, Quot.sound |
| C32 | `AtomTk.C32_fails` | propext, Classical.choice, Quot.sound |
| C33 | `AtomTk.C33_zeeman` | propext, Classical.choice, Quot.sound |
| C34 | `AtomTk.C34_values_partial` | propext, Classical.choice, Quot.sound |
| C34 | `AtomTk.C34_sum_partial` | propext, Classical.choice, Quot.sound |
| C34 | `AtomTk.C34_fails` | propext, Classical.choice, Quot.sound |
| C35 | `AtomTk.C35_dipole_partial` | propext, Classical.choice, Quot.sound |
| C35 | `AtomTk.C35_quadrupole_partial` | propext, Classical.choice, Quot.sound |
| C35 | `AtomTk.C35_nonneg_partial` | propext, Classical.choice, Quot.sound |
| C35 | `AtomTk.C35_fails` | propext, Classical.choice, Quot.sound |
| C41 | `AtomTk.C41_hyperfine_partial` | propext, Classical.choice, Quot.sound |
| C41 | `AtomTk.C41_zeeman_partial` | propext, Classical.choice, Quot.sound |
| C41 | `AtomTk.C41_first_partial` | propext, Classical.choice, Quot.sound |
| C41 | `AtomTk.C41_fails` | propext, Classical.choice, Quot.sound |
| C63 | `AtomTk.C63_lorentzian` | propext, Classical.choice, Quot.sound |
| C63 | `AtomTk.C63_shape` | propext, Classical.choice, Quot.sound |
| C63 | `AtomTk.C63_scale` | propext, Classical.choice, Quot.sound |
| C63 | `AtomTk.C63_zero_width` | propext, Classical.choice, Quot.sound |
| C64 | `AtomTk.C64_least_partial` | propext, Classical.choice, Quot.sound |
| C64 | `AtomTk.C64_ends_partial` | propext, Classical.choice, Quot.sound |
| C64 | `AtomTk.C64_unique_partial` | propext, Classical.choice, Quot.sound |
| C64 | `AtomTk.C64_moderate_partial` | propext, Classical.choice, Quot.sound |
| C64 | `AtomTk.C64_raises` | propext, Classical.choice, Quot.sound |
| C64 | `AtomTk.C64_fails` | propext, Classical.choice, Quot.sound |
| C64 | `AtomTk.C64_exists` | propext, Classical.choice, Quot.sound |
| C65 | `AtomTk.C65_shape` | propext, Classical.choice, Quot.sound |
| C65 | `AtomTk.C65_function` | propext, Classical.choice, Quot.sound |
| C65 | `AtomTk.C65_no_depth` | propext, Classical.choice, Quot.sound |
| C65 | `AtomTk.C65_width` | propext, Classical.choice, Quot.sound |
| C66 | `AtomTk.C66_window_partial` | propext, Classical.choice, Quot.sound |
| C66 | `AtomTk.C66_none` | propext, Classical.choice, Quot.sound |
| C66 | `AtomTk.C66_fails` | propext, Classical.choice, Quot.sound |
| C73 | `AtomTk.C73_gaussian` | propext, Classical.choice, Quot.sound |
| C73 | `AtomTk.C73_fwhm` | propext, Classical.choice, Quot.sound |
| C73 | `AtomTk.C73_shape` | propext, Classical.choice, Quot.sound |
| C74 | `AtomTk.C74_lorentzian_partial` | propext, Classical.choice, Quot.sound |
| C74 | `AtomTk.C74_sidebands_partial` | propext, Classical.choice, Quot.sound |
| C74 | `AtomTk.C74_gaussian_partial` | propext, Classical.choice, Quot.sound |
| C74 | `AtomTk.C74_fails` | propext, Classical.choice, Quot.sound |
| C74 | `AtomTk.C74_thermal_iff_partial` | propext, Classical.choice, Quot.sound |
| C75 | `AtomTk.C75_positive_partial` | propext, Classical.choice, Quot.sound |
| C75 | `AtomTk.C75_raises` | propext, Classical.choice, Quot.sound |
| C75 | `AtomTk.C75_fails` | propext, Classical.choice, Quot.sound |
| C67 | `AtomTk.C67_bbox` | propext, Classical.choice, Quot.sound |
| C67 | `AtomTk.C67_no_points` | propext, Classical.choice, Quot.sound |
| C67 | `AtomTk.C67_anchors` | propext, Classical.choice, Quot.sound |
| C67 | `AtomTk.C67_offset` | propext, Classical.choice, Quot.sound |
| C67 | `AtomTk.C67_no_anchor` | propext, Classical.choice, Quot.sound |
| C68 | `AtomTk.C68_drawn_partial` | propext, Classical.choice, Quot.sound |
| C68 | `AtomTk.C68_small_raises` | propext, Classical.choice, Quot.sound |
| C68 | `AtomTk.C68_fails` | propext, Classical.choice, Quot.sound |
| C68 | `AtomTk.C68_width_fails` | propext, Classical.choice, Quot.sound |
| C69 | `AtomTk.C69_lower_partial` | propext, Classical.choice, Quot.sound |
| C69 | `AtomTk.C69_gapless_partial` | propext, Classical.choice, Quot.sound |
| C69 | `AtomTk.C69_fails` | propext, Classical.choice, Quot.sound |
| C69 | `AtomTk.C69_default_raises` | propext, Classical.choice, Quot.sound |
| C69 | `AtomTk.C69_empty` | propext, Classical.choice, Quot.sound |
| C70 | `AtomTk.C70_upper_partial` | propext, Classical.choice, Quot.sound |
| C70 | `AtomTk.C70_fails` | propext, Classical.choice, Quot.sound |
| C76 | `AtomTk.C76_intensity_partial` | propext, Classical.choice, Quot.sound |
| C76 | `AtomTk.C76_orthogonal_partial` | propext, Classical.choice, Quot.sound |
| C76 | `AtomTk.C76_size_partial` | propext, Classical.choice, Quot.sound |
| C76 | `AtomTk.C76_beam_raises` | propext, Classical.choice, Quot.sound |
| C76 | `AtomTk.C76_beam_errors` | propext, Classical.choice, Quot.sound |
| C76 | `AtomTk.C76_fails` | propext, Classical.choice, Quot.sound |
| C77 | `AtomTk.C77_widths_partial` | propext, Classical.choice, Quot.sound |
| C77 | `AtomTk.C77_fails` | propext, Classical.choice, Quot.sound |
| C78 | `AtomTk.C78_zeeman` | propext, Classical.choice, Quot.sound |
| C78 | `AtomTk.C78_hyperfine` | propext, Classical.choice, Quot.sound |
| C78 | `AtomTk.C78_margin` | propext, Classical.choice, Quot.sound |
| C59 | `AtomTk.C59_csv` | propext, Classical.choice, Quot.sound |
| C59 | `AtomTk.C59_round_trip_partial` | propext, Classical.choice, Quot.sound |
| C59 | `AtomTk.C59_fails` | propext, Classical.choice, Quot.sound |
| C59 | `AtomTk.C59_blank_partial` | propext, Classical.choice, Quot.sound |
| C60 | `AtomTk.C60_row` | propext, Classical.choice, Quot.sound |
| C60 | `AtomTk.C60_file_partial` | propext, Classical.choice, Quot.sound |
| C60 | `AtomTk.C60_text_partial` | propext, Classical.choice, Quot.sound |
| C60 | `AtomTk.C60_any_partial` | propext, Classical.choice, Quot.sound |
| C60 | `AtomTk.C60_crash_partial` | propext, Classical.choice, Quot.sound |
| C60 | `AtomTk.C60_which` | propext, Classical.choice, Quot.sound |
| C60 | `AtomTk.C60_dimension` | propext, Classical.choice, Quot.sound |
| C60 | `AtomTk.C60_halfway_fails` | propext, Classical.choice, Quot.sound |
| C60 | `AtomTk.C60_marker_fails` | propext, Classical.choice, Quot.sound |
| C60 | `AtomTk.C60_fails` | propext, Classical.choice, Quot.sound |
| C61 | `AtomTk.C61_rule` | propext, Classical.choice, Quot.sound |
| C61 | `AtomTk.C61_one_dot_partial` | propext, Classical.choice, Quot.sound |
| C61 | `AtomTk.C61_again_partial` | propext, Classical.choice, Quot.sound |
| C61 | `AtomTk.C61_default` | propext, Classical.choice, Quot.sound |
| C61 | `AtomTk.C61_fails` | propext, Classical.choice, Quot.sound |
| C62 | `AtomTk.C62_rule` | propext, Classical.choice, Quot.sound |
| C62 | `AtomTk.C62_groups_partial` | propext, Classical.choice, Quot.sound |
| C62 | `AtomTk.C62_fails` | propext, Classical.choice, Quot.sound |
| C62 | `AtomTk.C62_other` | propext, Classical.choice, Quot.sound |
| C62 | `AtomTk.C62_front` | propext, Classical.choice, Quot.sound |
| C79 | `AtomTk.C79_fresh_partial` | propext, Classical.choice, Quot.sound |
| C79 | `AtomTk.C79_hyperfine_partial` | propext, Classical.choice, Quot.sound |
| C79 | `AtomTk.C79_zeeman_partial` | propext, Classical.choice, Quot.sound |
| C79 | `AtomTk.C79_mJ_partial` | propext, Classical.choice, Quot.sound |
| C79 | `AtomTk.C79_fine_partial` | propext, Classical.choice, Quot.sound |
| C79 | `AtomTk.C79_found_partial` | propext, Classical.choice, Quot.sound |
| C79 | `AtomTk.C79_overlap_raises` | propext, Classical.choice, Quot.sound |
| C79 | `AtomTk.C79_fails` | propext, Classical.choice, Quot.sound |
| C80 | `AtomTk.C80_assigned` | propext, Classical.choice, Quot.sound |
| C80 | `AtomTk.C80_attribute` | propext, Quot.sound |
| C80 | `AtomTk.C80_kept` | propext, Classical.choice, Quot.sound |
| C80 | `AtomTk.C80_unknown` | propext, Classical.choice, Quot.sound |
| C80 | `AtomTk.C80_fails` | propext, Classical.choice, Quot.sound |
| C80 | `AtomTk.C80_listed_partial` | propext, Classical.choice, Quot.sound |
| C81 | `AtomTk.C81_listing` | propext, Classical.choice, Quot.sound |
| C82 | `AtomTk.C82_new` | propext, Classical.choice, Quot.sound |
| C82 | `AtomTk.C82_present_partial` | propext, Classical.choice, Quot.sound |
| C82 | `AtomTk.C82_contradicts` | propext, Classical.choice, Quot.sound |
| C82 | `AtomTk.C82_replaced` | propext, Classical.choice, Quot.sound |
| C82 | `AtomTk.C82_fails` | propext, Classical.choice, Quot.sound |
| C83 | `AtomTk.C83_one_rounding` | propext, Classical.choice, Quot.sound |
| C83 | `AtomTk.C83_silent` | propext, Classical.choice, Quot.sound |
| C83 | `AtomTk.C83_error` | propext, Classical.choice, Quot.sound |
| C83 | `AtomTk.C83_path` | propext, Classical.choice, Quot.sound |
| C83 | `AtomTk.C83_exact` | propext, Classical.choice, Quot.sound |
| C83 | `AtomTk.C83_dbl` | propext, Classical.choice, Quot.sound |
| C84 | `AtomTk.C84_settled_partial` | propext, Classical.choice, Quot.sound |
| C84 | `AtomTk.C84_fails` | propext, Classical.choice, Quot.sound |
| C84 | `AtomTk.C84_moves_fails` | propext, Classical.choice, Quot.sound |
| C85 | `AtomTk.Nist.C85_cut_partial` | propext, Classical.choice, Quot.sound |
| C85 | `AtomTk.Nist.C85_no_limit` | propext, Classical.choice, Quot.sound |
| C85 | `AtomTk.Nist.C85_no_levels` | propext, Classical.choice, Quot.sound |
| C85 | `AtomTk.Nist.C85_missing` | propext, Classical.choice, Quot.sound |
| C85 | `AtomTk.Nist.C85_fails` | propext, Classical.choice, Quot.sound |
| C86 | `AtomTk.Nist.C86_separate_partial` | propext, Classical.choice, Quot.sound |
| C86 | `AtomTk.Nist.C86_columns_partial` | propext, Classical.choice, Quot.sound |
| C86 | `AtomTk.Nist.C86_fails` | propext, Classical.choice, Quot.sound |
| C87 | `AtomTk.Nist.C87_leading_partial` | propext, Classical.choice, Quot.sound |
| C87 | `AtomTk.Nist.C87_jj` | propext, Classical.choice, Quot.sound |
| C87 | `AtomTk.Nist.C87_fails` | propext, Classical.choice, Quot.sound |
| C88 | `AtomTk.Nist.C88_taken_partial` | propext, Classical.choice, Quot.sound |
| C88 | `AtomTk.Nist.C88_none` | propext, Classical.choice, Quot.sound |
| C88 | `AtomTk.Nist.C88_kept` | propext, Classical.choice, Quot.sound |
| C88 | `AtomTk.Nist.C88_fails` | propext, Classical.choice, Quot.sound |
| C89 | `AtomTk.Nist.C89_each` | propext, Classical.choice, Quot.sound |
| C90 | `AtomTk.C90_lead_partial` | propext, Classical.choice, Quot.sound |
| C90 | `AtomTk.C90_same` | propext, Classical.choice, Quot.sound |
| C90 | `AtomTk.C90_converted` | propext, Classical.choice, Quot.sound |
| C90 | `AtomTk.C90_equal` | propext, Classical.choice, Quot.sound |
| C90 | `AtomTk.C90_unknown` | propext, Classical.choice, Quot.sound |
| C90 | `AtomTk.C90_zero` | propext, Classical.choice, Quot.sound |
| C90 | `AtomTk.C90_fails` | propext, Classical.choice, Quot.sound |
| C91 | `AtomTk.C91_label` | propext, Classical.choice, Quot.sound |
| C91 | `AtomTk.C91_lk` | propext, Classical.choice, Quot.sound |
| C91 | `AtomTk.C91_jk_partial` | propext, Classical.choice, Quot.sound |
| C91 | `AtomTk.C91_jj_partial` | propext, Classical.choice, Quot.sound |
| C91 | `AtomTk.C91_term` | propext, Classical.choice, Quot.sound |
| C91 | `AtomTk.C91_missing` | propext, Classical.choice, Quot.sound |
| C91 | `AtomTk.C91_fails` | propext, Classical.choice, Quot.sound |
| C92 | `AtomTk.C92_even_partial` | propext, Classical.choice, Quot.sound |
| C92 | `AtomTk.C92_fails` | propext, Classical.choice, Quot.sound |
| C93 | `AtomTk.C93_empty_partial` | propext, Classical.choice, Quot.sound |
| C93 | `AtomTk.C93_fails` | propext, Classical.choice, Quot.sound |
| C94 | `AtomTk.C94_amplitudes_partial` | propext, Classical.choice, Quot.sound |
| C94 | `AtomTk.C94_fails` | propext, Classical.choice, Quot.sound |
| C95 | `AtomTk.C95_lk` | propext, Classical.choice, Quot.sound |
| C95 | `AtomTk.C95_jk_partial` | propext, Classical.choice, Quot.sound |
| C95 | `AtomTk.C95_jj_partial` | propext, Classical.choice, Quot.sound |
| C95 | `AtomTk.C95_term_partial` | propext, Classical.choice, Quot.sound |
| C95 | `AtomTk.C95_fails` | propext, Classical.choice, Quot.sound |
| C96 | `AtomTk.C96_sums` | propext, Classical.choice, Quot.sound |
| C97 | `AtomTk.C97_dipole_partial` | propext, Classical.choice, Quot.sound |
| C97 | `AtomTk.C97_quadrupole_partial` | propext, Classical.choice, Quot.sound |
| C97 | `AtomTk.C97_fails` | propext, Classical.choice, Quot.sound |
| C98 | `AtomTk.C98_dipole_partial` | propext, Classical.choice, Quot.sound |
| C98 | `AtomTk.C98_fails` | propext, Classical.choice, Quot.sound |
| C99 | `AtomTk.C99_stays_pinned` | propext, Classical.choice, Quot.sound |
| C99 | `AtomTk.C99_settled_partial` | propext, Classical.choice, Quot.sound |
| C99 | `AtomTk.C99_fails` | propext, Classical.choice, Quot.sound |
| C100 | `AtomTk.C100_listed_partial` | propext, Classical.choice, Quot.sound |
| C100 | `AtomTk.C100_fails` | propext, Classical.choice, Quot.sound |
| C101 | `AtomTk.C101_lifetime_partial` | propext, Classical.choice, Quot.sound |
| C101 | `AtomTk.C101_fails` | propext, Classical.choice, Quot.sound |
| C101 | `AtomTk.C101_missing` | propext, Classical.choice, Quot.sound |
| C102 | `AtomTk.C102_branching` | propext, Classical.choice, Quot.sound |
| C102 | `AtomTk.C102_missing` | propext, Classical.choice, Quot.sound |
| C103 | `AtomTk.Strengths.C103_dipole_partial` | propext, Classical.choice, Quot.sound |
| C103 | `AtomTk.Strengths.C103_dipole_mel_partial` | propext, Classical.choice, Quot.sound |
| C103 | `AtomTk.Strengths.C103_quad_partial` | propext, Classical.choice, Quot.sound |
| C103 | `AtomTk.Strengths.C103_fails` | propext, Classical.choice, Quot.sound |
| C103 | `AtomTk.Strengths.C103_two_fails` | propext, Classical.choice, Quot.sound |
| C103 | `AtomTk.Strengths.C103_strength_fails` | propext, Classical.choice, Quot.sound |
| C104 | `AtomTk.Strengths.C104_plane_partial` | propext, Classical.choice, Quot.sound |
| C104 | `AtomTk.Strengths.C104_central_partial` | propext, Classical.choice, Quot.sound |
| C104 | `AtomTk.Strengths.C104_fails` | propext, Classical.choice, Quot.sound |
| C105 | `AtomTk.C105_hyperfine` | propext, Classical.choice, Quot.sound |
| C105 | `AtomTk.C105_zeeman` | propext, Classical.choice, Quot.sound |
| C105 | `AtomTk.C105_order` | propext, Classical.choice, Quot.sound |
| C106 | `AtomTk.C106_steps_partial` | propext, Classical.choice, Quot.sound |
| C106 | `AtomTk.C106_zeeman` | propext, Classical.choice, Quot.sound |
| C106 | `AtomTk.C106_fails` | propext, Classical.choice, Quot.sound |
| C106 | `AtomTk.C106_order_fails` | propext, Classical.choice, Quot.sound |
| C107 | `AtomTk.C107_listed_partial` | propext, Classical.choice, Quot.sound |
| C107 | `AtomTk.C107_fails` | propext, Classical.choice, Quot.sound |
| C108 | `AtomTk.C108_lifetime_partial` | propext, Classical.choice, Quot.sound |
| C108 | `AtomTk.C108_fails` | propext, Classical.choice, Quot.sound |
| C108 | `AtomTk.C108_missing` | propext, Classical.choice, Quot.sound |
| C109 | `AtomTk.C109_branching` | propext, Classical.choice, Quot.sound |
| C109 | `AtomTk.C109_missing` | propext, Classical.choice, Quot.sound |
| C110 | `AtomTk.Nist.C110_text` | propext, Classical.choice, Quot.sound |
| C110 | `AtomTk.Nist.C110_every` | propext, Quot.sound |
| C110 | `AtomTk.Nist.C110_decoration` | propext, Classical.choice, Quot.sound |
| C110 | `AtomTk.Nist.C110_shown` | propext, Classical.choice, Quot.sound |
| C110 | `AtomTk.Nist.C110_numbers` | propext, Classical.choice, Quot.sound |
| C111 | `AtomTk.Load.C111_caller` | propext, Classical.choice, Quot.sound |
| C111 | `AtomTk.Load.C111_columns` | propext, Classical.choice, Quot.sound |
| C111 | `AtomTk.Load.C111_missing` | propext, Classical.choice, Quot.sound |
| C111 | `AtomTk.Load.C111_none` | propext, Classical.choice, Quot.sound |
| C111 | `AtomTk.Load.C111_loads` | propext, Classical.choice, Quot.sound |
| C112 | `AtomTk.Load.C112_rates_partial` | propext, Classical.choice, Quot.sound |
| C112 | `AtomTk.Load.C112_never` | propext, Classical.choice, Quot.sound |
| C112 | `AtomTk.Load.C112_fails` | propext, Classical.choice, Quot.sound |
| C113 | `AtomTk.Load.C113_default` | propext, Classical.choice, Quot.sound |
| C113 | `AtomTk.Load.C113_fails` | propext, Classical.choice, Quot.sound |
| C113 | `AtomTk.Load.C113_explicit_partial` | propext, Classical.choice, Quot.sound |
| C114 | `AtomTk.Load.C114_clean_partial` | propext, Classical.choice, Quot.sound |
| C114 | `AtomTk.Load.C114_decimal_partial` | propext, Classical.choice, Quot.sound |
| C114 | `AtomTk.Load.C114_fails` | propext, Classical.choice, Quot.sound |
| C115 | `AtomTk.C115_table_partial` | propext, Classical.choice, Quot.sound |
| C115 | `AtomTk.C115_raises` | propext, Classical.choice, Quot.sound |
| C115 | `AtomTk.C115_csv` | propext, Classical.choice, Quot.sound |
| C115 | `AtomTk.C115_hf_abort` | propext, Classical.choice, Quot.sound |
| C115 | `AtomTk.C115_abort` | propext, Classical.choice, Quot.sound |
| C115 | `AtomTk.C115_fails` | propext, Classical.choice, Quot.sound |
| C116 | `AtomTk.C116_hyperfine` | propext, Classical.choice, Quot.sound |
| C116 | `AtomTk.C116_zeeman` | propext, Classical.choice, Quot.sound |
| C116 | `AtomTk.C116_nothing_below` | propext, Classical.choice, Quot.sound |
| C117 | `AtomTk.C117_hyperfine_partial` | propext, Classical.choice, Quot.sound |
| C117 | `AtomTk.C117_zeeman_partial` | propext, Classical.choice, Quot.sound |
| C117 | `AtomTk.C117_absent` | propext, Quot.sound |
| C117 | `AtomTk.C117_fails` | propext, Classical.choice, Quot.sound |
| C118 | `AtomTk.C118_method_partial` | propext, Classical.choice, Quot.sound |
| C118 | `AtomTk.C118_append` | propext, Classical.choice, Quot.sound |
| C118 | `AtomTk.C118_del_raises` | none |
| C118 | `AtomTk.C118_fails` | propext, Classical.choice, Quot.sound |
| C119 | `AtomTk.C119_levels` | propext, Classical.choice, Quot.sound |
| C119 | `AtomTk.C119_transitions_partial` | propext, Classical.choice, Quot.sound |
| C119 | `AtomTk.C119_fails` | propext, Classical.choice, Quot.sound |
| C120 | `AtomTk.C120_width_partial` | propext, Classical.choice, Quot.sound |
| C120 | `AtomTk.C120_profile_partial` | propext, Classical.choice, Quot.sound |
| C120 | `AtomTk.C120_phase` | propext, Classical.choice, Quot.sound |
| C120 | `AtomTk.C120_radius` | propext, Classical.choice, Quot.sound |
| C120 | `AtomTk.C120_axis_partial` | propext, Classical.choice, Quot.sound |
| C120 | `AtomTk.C120_magnetic_zero` | propext, Classical.choice, Quot.sound |
| C120 | `AtomTk.C120_magnetic` | propext, Classical.choice, Quot.sound |
| C120 | `AtomTk.C120_fails` | propext, Classical.choice, Quot.sound |
| C120 | `AtomTk.C120_circular_fails` | propext, Classical.choice, Quot.sound |
| C121 | `AtomTk.C121_aims_partial` | propext, Classical.choice, Quot.sound |
| C121 | `AtomTk.C121_weights_partial` | propext, Classical.choice, Quot.sound |
| C121 | `AtomTk.C121_not_drawn_raises` | propext, Classical.choice, Quot.sound |
| C121 | `AtomTk.C121_override_raises` | propext, Classical.choice, Quot.sound |
| C121 | `AtomTk.C121_gross_partial` | propext, Classical.choice, Quot.sound |
| C121 | `AtomTk.C121_stale` | propext, Classical.choice, Quot.sound |
| C121 | `AtomTk.C121_fails` | propext, Classical.choice, Quot.sound |
| C122 | `AtomTk.C122_appends` | propext, Classical.choice, Quot.sound |
| C122 | `AtomTk.C122_twice_partial` | propext, Classical.choice, Quot.sound |
| C122 | `AtomTk.C122_fails` | propext, Classical.choice, Quot.sound |
| C122 | `AtomTk.C122_other_raises` | propext, Classical.choice, Quot.sound |
| C123 | `AtomTk.C123_hyperfine_partial` | propext, Classical.choice, Quot.sound |
| C123 | `AtomTk.C123_zeeman` | propext, Classical.choice, Quot.sound |
| C123 | `AtomTk.C123_gross` | propext, Classical.choice, Quot.sound |
| C123 | `AtomTk.C123_manifold` | propext, Classical.choice, Quot.sound |
| C123 | `AtomTk.C123_unsqueezed` | propext, Classical.choice, Quot.sound |
| C123 | `AtomTk.C123_fails` | propext, Classical.choice, Quot.sound |
| C123 | `AtomTk.C123_displaced` | propext, Classical.choice, Quot.sound |
| C124 | `AtomTk.C124_same_colour_partial` | propext, Classical.choice, Quot.sound |
| C124 | `AtomTk.C124_places` | propext, Classical.choice, Quot.sound |
| C124 | `AtomTk.C124_rectangles` | propext, Classical.choice, Quot.sound |
| C124 | `AtomTk.C124_mixed` | propext, Classical.choice, Quot.sound |
| C124 | `AtomTk.C124_fails` | propext, Classical.choice, Quot.sound |
| C125 | `AtomTk.C125_gravity_partial` | propext, Classical.choice, Quot.sound |
| C125 | `AtomTk.C125_fails` | propext, Classical.choice, Quot.sound |
| C125 | `AtomTk.C125_inside_fails` | propext, Classical.choice, Quot.sound |
| C126 | `AtomTk.C126_sum` | propext, Classical.choice, Quot.sound |
| C126 | `AtomTk.C126_single` | propext, Classical.choice, Quot.sound |
| C126 | `AtomTk.C126_order` | propext, Classical.choice, Quot.sound |
| C126 | `AtomTk.C126_above` | propext, Classical.choice, Quot.sound |
| C126 | `AtomTk.C126_empty_raises` | propext, Classical.choice, Quot.sound |
| C126 | `AtomTk.C126_inside_partial` | propext, Classical.choice, Quot.sound |
| C126 | `AtomTk.C126_fails` | propext, Classical.choice, Quot.sound |
| C127 | `AtomTk.C127_list_partial` | propext, Classical.choice, Quot.sound |
| C127 | `AtomTk.C127_hyperfine_partial` | propext, Classical.choice, Quot.sound |
| C127 | `AtomTk.C127_zeeman_partial` | propext, Classical.choice, Quot.sound |
| C127 | `AtomTk.C127_default_raises` | propext, Classical.choice, Quot.sound |
| C127 | `AtomTk.C127_one_raises` | propext, Classical.choice, Quot.sound |
| C127 | `AtomTk.C127_list_raises` | propext, Classical.choice, Quot.sound |
| C127 | `AtomTk.C127_default_error` | propext, Classical.choice, Quot.sound |
| C127 | `AtomTk.C127_colouring_raises` | propext, Classical.choice, Quot.sound |
| C127 | `AtomTk.C127_temperature` | propext, Classical.choice, Quot.sound |
| C127 | `AtomTk.C127_empty_raises` | propext, Classical.choice, Quot.sound |
| C127 | `AtomTk.C127_fails` | propext, Classical.choice, Quot.sound |
| C128 | `AtomTk.C128_hyperfine_partial` | propext, Classical.choice, Quot.sound |
| C128 | `AtomTk.C128_zeeman_partial` | propext, Classical.choice, Quot.sound |
| C128 | `AtomTk.C128_lowest_raises` | propext |
| C128 | `AtomTk.C128_exchanged_fails` | propext, Classical.choice, Quot.sound |
| C128 | `AtomTk.C128_fails` | propext, Classical.choice, Quot.sound |
| C129 | `AtomTk.C129_set_partial` | propext, Quot.sound |
| C129 | `AtomTk.C129_del_partial` | propext, Quot.sound |
| C129 | `AtomTk.C129_unknown` | propext, Quot.sound |
| C129 | `AtomTk.C129_first_set` | propext, Quot.sound |
| C129 | `AtomTk.C129_last_del` | propext, Quot.sound |
| C129 | `AtomTk.C129_fails` | propext, Classical.choice, Quot.sound |
| C130 | `AtomTk.C130_partial` | propext, Classical.choice, Quot.sound |
| C130 | `AtomTk.C130_named_partial` | propext, Classical.choice, Quot.sound |
| C130 | `AtomTk.C130_plain` | propext, Classical.choice, Quot.sound |
| C130 | `AtomTk.C130_refused` | none |
| C130 | `AtomTk.C130_fails` | propext, Classical.choice, Quot.sound |
| C131 | `AtomTk.C131_gravity_partial` | propext, Classical.choice, Quot.sound |
| C131 | `AtomTk.C131_total_partial` | propext, Classical.choice, Quot.sound |
| C131 | `AtomTk.C131_fails` | propext, Classical.choice, Quot.sound |
| C132 | `AtomTk.C132_new` | propext, Classical.choice, Quot.sound |
| C132 | `AtomTk.C132_agree_partial` | propext, Classical.choice, Quot.sound |
| C132 | `AtomTk.C132_replaces` | propext, Classical.choice, Quot.sound |
| C132 | `AtomTk.C132_refused` | propext, Classical.choice, Quot.sound |
| C132 | `AtomTk.C132_ignored` | propext, Classical.choice, Quot.sound |
| C132 | `AtomTk.C132_fails` | propext, Classical.choice, Quot.sound |
| C133 | `AtomTk.C133_product_partial` | propext, Classical.choice, Quot.sound |
| C133 | `AtomTk.C133_raises` | propext, Classical.choice, Quot.sound |
| C133 | `AtomTk.C133_order` | propext, Classical.choice, Quot.sound |
| C133 | `AtomTk.C133_ritz` | propext, Classical.choice, Quot.sound |
| C133 | `AtomTk.C133_sub` | propext, Classical.choice, Quot.sound |
| C133 | `AtomTk.C133_units` | propext, Classical.choice, Quot.sound |
| C133 | `AtomTk.C133_set_nm` | propext, Classical.choice, Quot.sound |
| C133 | `AtomTk.C133_set_partial` | propext, Classical.choice, Quot.sound |
| C133 | `AtomTk.C133_fails` | propext, Classical.choice, Quot.sound |
| C134 | `AtomTk.C134_kept` | propext, Classical.choice, Quot.sound |
| C134 | `AtomTk.C134_assigned` | propext, Classical.choice, Quot.sound |
| C134 | `AtomTk.C134_energies` | propext, Classical.choice, Quot.sound |
| C135 | `AtomTk.C135_containers_partial` | propext, Classical.choice, Quot.sound |
| C135 | `AtomTk.C135_empty_raises` | propext, Classical.choice, Quot.sound |
| C135 | `AtomTk.C135_multi_raises` | none |
| C135 | `AtomTk.C135_fresh` | propext, Classical.choice, Quot.sound |
| C135 | `AtomTk.C135_level_partial` | propext, Classical.choice, Quot.sound |
| C135 | `AtomTk.C135_rest` | propext, Classical.choice, Quot.sound |
| C135 | `AtomTk.C135_kind` | propext, Classical.choice, Quot.sound |
| C135 | `AtomTk.C135_fails` | propext, Classical.choice, Quot.sound |
| C136 | `AtomTk.C136_call_partial` | propext, Classical.choice, Quot.sound |
| C136 | `AtomTk.C136_calls_partial` | propext, Classical.choice, Quot.sound |
| C136 | `AtomTk.C136_single` | propext, Classical.choice, Quot.sound |
| C136 | `AtomTk.C136_fails` | propext, Classical.choice, Quot.sound |
| C137 | `AtomTk.C137_spin_partial` | propext, Classical.choice, Quot.sound |
| C137 | `AtomTk.C137_levels` | propext, Classical.choice, Quot.sound |
| C137 | `AtomTk.C137_fails` | propext, Classical.choice, Quot.sound |
| C137 | `AtomTk.C137_missing` | propext, Classical.choice, Quot.sound |
| C137 | `AtomTk.C137_lookup` | propext, Classical.choice, Quot.sound |
| C138 | `AtomTk.C138_first_partial` | propext, Classical.choice, Quot.sound |
| C138 | `AtomTk.C138_fails` | propext, Classical.choice, Quot.sound |
| C139 | `AtomTk.C139_plain_partial` | propext, Classical.choice, Quot.sound |
| C139 | `AtomTk.C139_iff` | propext, Classical.choice, Quot.sound |
| C139 | `AtomTk.C139_fails` | propext, Classical.choice, Quot.sound |
| C140 | `AtomTk.C140_ten_partial` | propext, Classical.choice, Quot.sound |
| C140 | `AtomTk.C140_order` | propext, Classical.choice, Quot.sound |
| C140 | `AtomTk.C140_first` | propext, Classical.choice, Quot.sound |
| C140 | `AtomTk.C140_clash` | propext, Classical.choice, Quot.sound |
| C140 | `AtomTk.C140_raises` | propext, Classical.choice, Quot.sound |
| C140 | `AtomTk.C140_fails` | propext, Classical.choice, Quot.sound |
| C141 | `AtomTk.C141_missing` | propext, Classical.choice, Quot.sound |
| C141 | `AtomTk.C141_add_partial` | propext, Classical.choice, Quot.sound |
| C141 | `AtomTk.C141_sublevels` | propext, Classical.choice, Quot.sound |
| C141 | `AtomTk.C141_ghost` | propext, Classical.choice, Quot.sound |
| C141 | `AtomTk.C141_fails` | propext, Classical.choice, Quot.sound |
| C142 | `AtomTk.C142_levels_partial` | propext, Classical.choice, Quot.sound |
| C142 | `AtomTk.C142_raises` | propext, Classical.choice, Quot.sound |
| C142 | `AtomTk.C142_fails` | propext, Classical.choice, Quot.sound |
| C143 | `AtomTk.C143_hot_partial` | propext, Classical.choice, Quot.sound |
| C143 | `AtomTk.C143_hot_thermal_partial` | propext, Classical.choice, Quot.sound |
| C143 | `AtomTk.C143_wide` | propext, Classical.choice, Quot.sound |
| C143 | `AtomTk.C143_high` | propext, Classical.choice, Quot.sound |
| C143 | `AtomTk.C143_fails` | propext, Classical.choice, Quot.sound |
| C144 | `AtomTk.C144_limits_partial` | propext, Classical.choice, Quot.sound |
| C144 | `AtomTk.C144_low` | propext, Classical.choice, Quot.sound |
| C144 | `AtomTk.C144_half` | propext, Classical.choice, Quot.sound |
| C144 | `AtomTk.C144_jump` | propext, Classical.choice, Quot.sound |
| C144 | `AtomTk.C144_fails` | propext, Classical.choice, Quot.sound |
| C145 | `AtomTk.C145_history` | propext, Classical.choice, Quot.sound |
| C145 | `AtomTk.C145_observed` | propext, Classical.choice, Quot.sound |
| C145 | `AtomTk.C145_unit` | propext, Classical.choice, Quot.sound |
| C146 | `AtomTk.C146_invisible` | propext, Classical.choice, Quot.sound |
| C146 | `AtomTk.C146_same` | propext, Classical.choice, Quot.sound |
| C146 | `AtomTk.C146_hyperfine` | propext, Classical.choice, Quot.sound |
| C146 | `AtomTk.C146_lookups` | propext, Classical.choice, Quot.sound |
| C147 | `AtomTk.C147_sum` | propext, Classical.choice, Quot.sound |
| C147 | `AtomTk.C147_loop` | propext, Classical.choice, Quot.sound |
| C147 | `AtomTk.C147_hyperfine` | propext, Classical.choice, Quot.sound |
| C148 | `AtomTk.C148_interval` | propext, Classical.choice, Quot.sound |
| C148 | `AtomTk.C148_levels` | propext, Classical.choice, Quot.sound |
| C148 | `AtomTk.C148_linear` | propext, Classical.choice, Quot.sound |
| C149 | `AtomTk.C149_rank` | propext, Classical.choice, Quot.sound |
| C149 | `AtomTk.C149_order` | propext, Classical.choice, Quot.sound |
| C150 | `AtomTk.C150_some_order` | propext, Classical.choice, Quot.sound |
| C150 | `AtomTk.C150_outward_partial` | propext, Classical.choice, Quot.sound |
| C150 | `AtomTk.C150_joined` | propext, Classical.choice, Quot.sound |
| C150 | `AtomTk.C150_fails` | propext, Classical.choice, Quot.sound |
| C151 | `AtomTk.C151_173_partial` | propext, Classical.choice, Quot.sound |
| C151 | `AtomTk.C151_174_partial` | propext, Classical.choice, Quot.sound |
| C151 | `AtomTk.C151_two` | propext, Classical.choice, Quot.sound |
| C151 | `AtomTk.C151_171_raises` | propext, Classical.choice, Quot.sound |
| C151 | `AtomTk.C151_171_partial` | propext, Classical.choice, Quot.sound |
| C151 | `AtomTk.C151_fails` | propext, Classical.choice, Quot.sound |
| C152 | `AtomTk.C152_mirror` | propext, Classical.choice, Quot.sound |
| C152 | `AtomTk.C152_normal` | propext, Classical.choice, Quot.sound |
| C153 | `AtomTk.Nist.C153_atom` | propext, Classical.choice, Quot.sound |
| C154 | `AtomTk.Strengths.C154_exact_partial` | propext, Classical.choice, Quot.sound |
| C154 | `AtomTk.Strengths.C154_vectors` | propext, Classical.choice, Quot.sound |
| C154 | `AtomTk.Strengths.C154_axes` | propext, Quot.sound |
| C154 | `AtomTk.Strengths.C154_turned` | propext, Classical.choice, Quot.sound |
| C154 | `AtomTk.Strengths.C154_silent` | propext, Classical.choice, Quot.sound |
| C154 | `AtomTk.Strengths.C154_false_alarm` | propext, Classical.choice, Quot.sound |
| C154 | `AtomTk.Strengths.C154_fails` | propext, Classical.choice, Quot.sound |
| C155 | `AtomTk.C155_enforce` | propext, Classical.choice, Quot.sound |
| C155 | `AtomTk.C155_present_partial` | propext, Classical.choice, Quot.sound |
| C155 | `AtomTk.C155_fails` | propext, Classical.choice, Quot.sound |
| C156 | `AtomTk.C156_scan_partial` | propext, Classical.choice, Quot.sound |
| C156 | `AtomTk.C156_undo_partial` | propext, Classical.choice, Quot.sound |
| C156 | `AtomTk.C156_fails` | propext, Classical.choice, Quot.sound |
| C156 | `AtomTk.C156_tree_partial` | propext, Classical.choice, Quot.sound |
| C156 | `AtomTk.C156_tree_undo_partial` | propext, Classical.choice, Quot.sound |
| C157 | `AtomTk.C157_whole` | propext, Classical.choice, Quot.sound |
| C157 | `AtomTk.C157_mean` | propext, Classical.choice, Quot.sound |
| C158 | `AtomTk.C158_atomic_partial` | propext, Classical.choice, Quot.sound |
| C158 | `AtomTk.C158_as_if_partial` | propext, Classical.choice, Quot.sound |
| C158 | `AtomTk.C158_alias_kept` | propext, Classical.choice, Quot.sound |
| C158 | `AtomTk.C158_listed` | propext, Classical.choice, Quot.sound |
| C158 | `AtomTk.C158_edge_set` | propext, Classical.choice, Quot.sound |
| C158 | `AtomTk.C158_fails` | propext, Classical.choice, Quot.sound |
| C159 | `AtomTk.C159_field_partial` | propext, Classical.choice, Quot.sound |
| C159 | `AtomTk.C159_energy` | propext, Classical.choice, Quot.sound |
| C159 | `AtomTk.C159_mirror_partial` | propext, Classical.choice, Quot.sound |
| C159 | `AtomTk.C159_reversal_partial` | propext, Classical.choice, Quot.sound |
| C159 | `AtomTk.C159_fails` | propext, Classical.choice, Quot.sound |
| C160 | `AtomTk.C160_bound` | propext, Classical.choice, Quot.sound |
| C160 | `AtomTk.C160_check_partial` | propext, Classical.choice, Quot.sound |
| C160 | `AtomTk.C160_no_false` | propext, Classical.choice, Quot.sound |
| C160 | `AtomTk.C160_fails` | propext, Classical.choice, Quot.sound |
| C160 | `AtomTk.C160_warns_without_loop` | propext, Classical.choice, Quot.sound |
| C161 | `AtomTk.C161_pinning` | propext, Classical.choice, Quot.sound |
| C161 | `AtomTk.C161_same_partial` | propext, Classical.choice, Quot.sound |
| C161 | `AtomTk.C161_program_partial` | propext, Classical.choice, Quot.sound |
| C161 | `AtomTk.C161_fails` | propext, Classical.choice, Quot.sound |
| C161 | `AtomTk.C161_loop` | propext, Classical.choice, Quot.sound |
| C162 | `AtomTk.C162_two_partial` | propext, Classical.choice, Quot.sound |
| C162 | `AtomTk.C162_any_order_partial` | propext, Classical.choice, Quot.sound |
| C162 | `AtomTk.C162_fails` | propext, Classical.choice, Quot.sound |
| C163 | `AtomTk.C163_groups` | propext, Classical.choice, Quot.sound |
| C163 | `AtomTk.C163_group` | propext, Classical.choice, Quot.sound |
| C164 | `AtomTk.C164_single_partial` | propext, Classical.choice, Quot.sound |
| C164 | `AtomTk.C164_second_group` | propext, Classical.choice, Quot.sound |
| C164 | `AtomTk.C164_other_name` | propext, Classical.choice, Quot.sound |
| C164 | `AtomTk.C164_level` | propext, Classical.choice, Quot.sound |
| C164 | `AtomTk.C164_hyperfine` | propext, Classical.choice, Quot.sound |
| C164 | `AtomTk.C164_two_characters` | propext, Classical.choice, Quot.sound |
| C164 | `AtomTk.C164_zeeman` | propext, Classical.choice, Quot.sound |
| C164 | `AtomTk.C164_transition` | propext, Classical.choice, Quot.sound |
| C164 | `AtomTk.C164_none_set` | propext, Classical.choice, Quot.sound |
| C164 | `AtomTk.C164_fails` | propext, Classical.choice, Quot.sound |
| C164 | `AtomTk.C164_name_fails` | propext, Classical.choice, Quot.sound |
| C165 | `AtomTk.C165_alone_partial` | propext, Classical.choice, Quot.sound |
| C165 | `AtomTk.C165_moves` | propext, Classical.choice, Quot.sound |
| C165 | `AtomTk.C165_pinned` | propext, Classical.choice, Quot.sound |
| C165 | `AtomTk.C165_removed` | none |
| C165 | `AtomTk.C165_again` | propext, Classical.choice, Quot.sound |
| C165 | `AtomTk.C165_fails` | propext, Classical.choice, Quot.sound |
| C166 | `AtomTk.C166_value` | propext, Classical.choice, Quot.sound |
| C166 | `AtomTk.C166_errors` | propext, Classical.choice, Quot.sound |
| C166 | `AtomTk.C166_same` | propext, Classical.choice, Quot.sound |
| C166 | `AtomTk.C166_back` | propext, Classical.choice, Quot.sound |
| C166 | `AtomTk.C166_read_errors` | propext, Classical.choice, Quot.sound |
| C166 | `AtomTk.C166_ground` | propext, Classical.choice, Quot.sound |
| C166 | `AtomTk.C166_linear` | propext, Classical.choice, Quot.sound |
| C166 | `AtomTk.C166_level_partial` | propext, Classical.choice, Quot.sound |
| C166 | `AtomTk.C166_sublevel_partial` | propext, Classical.choice, Quot.sound |
| C166 | `AtomTk.C166_sublevel_raises` | propext, Classical.choice, Quot.sound |
| C166 | `AtomTk.C166_level_raises` | propext, Classical.choice, Quot.sound |
| C166 | `AtomTk.C166_no_energy` | propext, Classical.choice, Quot.sound |
| C166 | `AtomTk.C166_new` | propext, Classical.choice, Quot.sound |
| C166 | `AtomTk.C166_constants` | propext, Classical.choice, Quot.sound |
| C166 | `AtomTk.C166_field` | propext, Classical.choice, Quot.sound |
| C166 | `AtomTk.C166_subtransition` | propext, Classical.choice, Quot.sound |
| C166 | `AtomTk.C166_fails` | propext, Classical.choice, Quot.sound |
| C166 | `AtomTk.C166_sublevel_fails` | propext, Classical.choice, Quot.sound |
| C167 | `AtomTk.C167_factor` | propext, Classical.choice, Quot.sound |
| C167 | `AtomTk.C167_factors` | propext, Classical.choice, Quot.sound |
| C167 | `AtomTk.C167_moment_partial` | propext, Classical.choice, Quot.sound |
| C167 | `AtomTk.C167_stretched` | propext, Classical.choice, Quot.sound |
| C167 | `AtomTk.C167_fails` | propext, Classical.choice, Quot.sound |
| C168 | `AtomTk.C168_recover` | propext, Classical.choice, Quot.sound |
| C168 | `AtomTk.C168_unique` | propext, Classical.choice, Quot.sound |
| C168 | `AtomTk.C168_blind` | propext, Classical.choice, Quot.sound |
| C168 | `AtomTk.C168_variance` | propext, Classical.choice, Quot.sound |
| C168 | `AtomTk.C168_levels` | propext, Classical.choice, Quot.sound |
| C169 | `AtomTk.C169_never` | propext, Classical.choice, Quot.sound |
| C169 | `AtomTk.C169_pair` | propext, Classical.choice, Quot.sound |
| C169 | `AtomTk.C169_key` | propext, Classical.choice, Quot.sound |
| C169 | `AtomTk.C169_table` | propext, Classical.choice, Quot.sound |
| C169 | `AtomTk.C169_fails` | propext, Classical.choice, Quot.sound |
| C169 | `AtomTk.C169_mixed` | propext, Classical.choice, Quot.sound |
| C169 | `AtomTk.C169_names_partial` | propext, Classical.choice, Quot.sound |
| C170 | `AtomTk.C170_what` | propext, Classical.choice, Quot.sound |
| C170 | `AtomTk.C170_elsewhere` | propext, Classical.choice, Quot.sound |
| C170 | `AtomTk.C170_good` | propext, Classical.choice, Quot.sound |
| C170 | `AtomTk.C170_raises_partial` | propext, Classical.choice, Quot.sound |
| C170 | `AtomTk.C170_poisoned` | propext, Classical.choice, Quot.sound |
| C170 | `AtomTk.C170_poisoned_set` | propext, Classical.choice, Quot.sound |
| C170 | `AtomTk.C170_fails` | propext, Classical.choice, Quot.sound |
| C170 | `AtomTk.C170_order` | propext, Classical.choice, Quot.sound |
| C170 | `AtomTk.C170_undone_fails` | propext, Classical.choice, Quot.sound |
| C171 | `AtomTk.C171_built` | propext, Classical.choice, Quot.sound |
| C171 | `AtomTk.C171_lifetime` | propext, Classical.choice, Quot.sound |
| C171 | `AtomTk.C171_one_unit_partial` | propext, Classical.choice, Quot.sound |
| C171 | `AtomTk.C171_hyperfine` | propext, Classical.choice, Quot.sound |
| C171 | `AtomTk.C171_zeeman` | propext, Classical.choice, Quot.sound |
| C171 | `AtomTk.C171_stale` | propext, Classical.choice, Quot.sound |
| C171 | `AtomTk.C171_none` | propext, Classical.choice, Quot.sound |
| C171 | `AtomTk.C171_bare` | propext, Classical.choice, Quot.sound |
| C171 | `AtomTk.C171_fails` | propext, Classical.choice, Quot.sound |
| C171 | `AtomTk.C171_lines_fails` | propext, Classical.choice, Quot.sound |
| C172 | `AtomTk.C172_poisoned` | propext, Classical.choice, Quot.sound |
| C172 | `AtomTk.C172_raises` | propext, Classical.choice, Quot.sound |
| C172 | `AtomTk.C172_named` | propext, Classical.choice, Quot.sound |
| C172 | `AtomTk.C172_stays` | propext, Classical.choice, Quot.sound |
| C172 | `AtomTk.C172_set` | propext, Classical.choice, Quot.sound |
| C172 | `AtomTk.C172_elsewhere` | propext, Classical.choice, Quot.sound |
| C172 | `AtomTk.C172_outside` | propext, Classical.choice, Quot.sound |
| C172 | `AtomTk.C172_quiet` | propext, Classical.choice, Quot.sound |
| C172 | `AtomTk.C172_cured` | propext, Classical.choice, Quot.sound |
| C172 | `AtomTk.C172_again` | propext, Classical.choice, Quot.sound |
| C172 | `AtomTk.C172_fixed` | propext, Classical.choice, Quot.sound |
| C172 | `AtomTk.C172_mixed` | propext, Classical.choice, Quot.sound |
| C172 | `AtomTk.C172_moves` | propext, Classical.choice, Quot.sound |
| C172 | `AtomTk.C172_fails` | propext, Classical.choice, Quot.sound |
| C173 | `AtomTk.C173_made` | propext, Classical.choice, Quot.sound |
| C173 | `AtomTk.C173_freq` | propext, Classical.choice, Quot.sound |
| C173 | `AtomTk.C173_set` | propext, Classical.choice, Quot.sound |
| C173 | `AtomTk.C173_types_partial` | propext, Classical.choice, Quot.sound |
| C173 | `AtomTk.C173_dipole` | propext, Classical.choice, Quot.sound |
| C173 | `AtomTk.C173_lines` | propext, Classical.choice, Quot.sound |
| C173 | `AtomTk.C173_never` | propext, Classical.choice, Quot.sound |
| C173 | `AtomTk.C173_fails` | propext, Classical.choice, Quot.sound |
| C173 | `AtomTk.C173_freq_fails` | propext, Classical.choice, Quot.sound |
| C174 | `AtomTk.C174_agrees` | propext, Classical.choice, Quot.sound |
| C174 | `AtomTk.C174_moved` | propext, Classical.choice, Quot.sound |
| C174 | `AtomTk.C174_zeeman` | propext, Classical.choice, Quot.sound |
| C174 | `AtomTk.C174_rest` | propext, Classical.choice, Quot.sound |
| C174 | `AtomTk.C174_sits_partial` | propext, Classical.choice, Quot.sound |
| C174 | `AtomTk.C174_follows` | propext, Classical.choice, Quot.sound |
| C174 | `AtomTk.C174_set` | propext, Classical.choice, Quot.sound |
| C174 | `AtomTk.C174_listed` | propext, Classical.choice, Quot.sound |
| C174 | `AtomTk.C174_hides` | propext, Classical.choice, Quot.sound |
| C174 | `AtomTk.C174_deleted` | propext, Classical.choice, Quot.sound |
| C174 | `AtomTk.C174_same` | propext, Quot.sound |
| C174 | `AtomTk.C174_assignZ` | propext, Classical.choice, Quot.sound |
| C174 | `AtomTk.C174_agrees_zeeman` | propext, Classical.choice, Quot.sound |
| C174 | `AtomTk.C174_gF` | propext, Classical.choice, Quot.sound |
| C174 | `AtomTk.C174_fails` | propext, Classical.choice, Quot.sound |
| C175 | `AtomTk.C175_constructor` | propext, Classical.choice, Quot.sound |
| C175 | `AtomTk.C175_made` | propext, Classical.choice, Quot.sound |
| C175 | `AtomTk.C175_raises_partial` | propext, Classical.choice, Quot.sound |
| C175 | `AtomTk.C175_poisoned` | propext, Classical.choice, Quot.sound |
| C175 | `AtomTk.C175_without` | propext, Classical.choice, Quot.sound |
| C175 | `AtomTk.C175_repaired` | propext, Classical.choice, Quot.sound |
| C175 | `AtomTk.C175_refused` | propext, Classical.choice, Quot.sound |
| C175 | `AtomTk.C175_object` | propext, Classical.choice, Quot.sound |
| C175 | `AtomTk.C175_fails` | propext, Classical.choice, Quot.sound |
| C175 | `AtomTk.C175_loop` | propext, Classical.choice, Quot.sound |
| C176 | `AtomTk.C176_deleted` | propext, Quot.sound |
| C176 | `AtomTk.C176_level_partial` | propext, Classical.choice, Quot.sound |
| C176 | `AtomTk.C176_transitions` | propext, Classical.choice, Quot.sound |
| C176 | `AtomTk.C176_level_last` | propext, Classical.choice, Quot.sound |
| C176 | `AtomTk.C176_alone_partial` | propext, Classical.choice, Quot.sound |
| C176 | `AtomTk.C176_accepted` | propext, Classical.choice, Quot.sound |
| C176 | `AtomTk.C176_fails` | propext, Classical.choice, Quot.sound |
| C176 | `AtomTk.C176_alias` | propext, Classical.choice, Quot.sound |
| C177 | `AtomTk.C177_rate` | propext, Classical.choice, Quot.sound |
| C177 | `AtomTk.C177_hyperfine` | propext, Classical.choice, Quot.sound |
| C177 | `AtomTk.C177_zeeman` | propext, Classical.choice, Quot.sound |
| C178 | `AtomTk.C178_same_partial` | propext, Classical.choice, Quot.sound |
| C178 | `AtomTk.C178_populated_partial` | propext, Classical.choice, Quot.sound |
| C178 | `AtomTk.C178_zeeman` | propext, Classical.choice, Quot.sound |
| C178 | `AtomTk.C178_fails` | propext, Classical.choice, Quot.sound |
| C178 | `AtomTk.C178_alias` | propext, Classical.choice, Quot.sound |
| C179 | `AtomTk.C179_hyperfine` | propext, Classical.choice, Quot.sound |
| C179 | `AtomTk.C179_zeeman` | propext, Classical.choice, Quot.sound |
| C179 | `AtomTk.C179_lines_partial` | propext, Classical.choice, Quot.sound |
| C179 | `AtomTk.C179_zeeman_lines_partial` | propext, Classical.choice, Quot.sound |
| C179 | `AtomTk.C179_fails` | propext, Classical.choice, Quot.sound |
| C180 | `AtomTk.C180_world_partial` | propext, Classical.choice, Quot.sound |
| C180 | `AtomTk.C180_same_partial` | propext, Classical.choice, Quot.sound |
| C180 | `AtomTk.C180_result` | propext, Classical.choice, Quot.sound |
| C180 | `AtomTk.C180_fails` | propext, Classical.choice, Quot.sound |
| C181 | `AtomTk.C181_constants_partial` | propext, Classical.choice, Quot.sound |
| C181 | `AtomTk.C181_sublevels_partial` | propext, Classical.choice, Quot.sound |
| C181 | `AtomTk.C181_fails` | propext, Classical.choice, Quot.sound |
| C182 | `AtomTk.C182_factors_partial` | propext, Classical.choice, Quot.sound |
| C182 | `AtomTk.C182_zeeman_partial` | propext, Classical.choice, Quot.sound |
| C182 | `AtomTk.C182_no_field_partial` | propext, Classical.choice, Quot.sound |
| C182 | `AtomTk.C182_fails` | propext, Classical.choice, Quot.sound |
| C183 | `AtomTk.C183_worlds` | propext, Classical.choice, Quot.sound |
| C183 | `AtomTk.C183_same` | propext, Classical.choice, Quot.sound |
| C183 | `AtomTk.C183_results` | propext, Classical.choice, Quot.sound |
| C183 | `AtomTk.C183_hyperfine_partial` | propext, Classical.choice, Quot.sound |
| C183 | `AtomTk.C183_fails` | propext, Classical.choice, Quot.sound |
| C184 | `AtomTk.C184_single` | propext, Classical.choice, Quot.sound |
| C184 | `AtomTk.C184_energy` | propext, Classical.choice, Quot.sound |
| C184 | `AtomTk.C184_zeeman` | propext, Classical.choice, Quot.sound |
| C184 | `AtomTk.C184_line` | propext, Classical.choice, Quot.sound |
| C185 | `AtomTk.C185_mutual_hyperfine` | propext, Classical.choice, Quot.sound |
| C185 | `AtomTk.C185_mutual_zeeman` | propext, Classical.choice, Quot.sound |
| C186 | `AtomTk.C186_order_partial` | propext, Classical.choice, Quot.sound |
| C186 | `AtomTk.C186_fails` | propext, Classical.choice, Quot.sound |
| C186 | `AtomTk.C186_line_partial` | propext, Classical.choice, Quot.sound |
| C186 | `AtomTk.C186_zeeman_fails` | propext, Classical.choice, Quot.sound |
| C187 | `AtomTk.C187_isotopes` | propext, Classical.choice, Quot.sound |
| C187 | `AtomTk.C187_results` | propext, Classical.choice, Quot.sound |
