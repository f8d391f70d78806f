{"claims":[
{"property": "C01", "status": "proved", "theorems": ["AtomTk.C01_frac_roundtrip", "AtomTk.C01_frac_injective", "AtomTk.C01_frac_nonhalf_collide", "AtomTk.C01_none", "AtomTk.C01_decimal", "AtomTk.C01_text"], "note": "all half-integers; the non-half-integer collision is shown separately"},
{"property": "C02", "status": "partial", "theorems": ["AtomTk.C02_letter_roundtrip", "AtomTk.C02_letter_roundtrip'", "AtomTk.C02_letToL_domain", "AtomTk.C02_letToL_letters", "AtomTk.C02_floats", "AtomTk.C02_negative_wraps_fails", "AtomTk.C02_letters_partial"], "note": "round trips, let_to_l domain and upper/lower bounds proved; property is false for l_to_let(-21..-1), which wraps to the end of the table (C02_negative_wraps_fails)"},
{"property": "C03", "status": "proved", "theorems": ["AtomTk.C03_coupling"], "note": "classification of every term text"},
{"property": "C04", "status": "proved", "theorems": ["AtomTk.C04_LS", "AtomTk.C04_LS_no_letter", "AtomTk.C04_LS_two"], "note": "all multiplicities, letters, configurations; the no-letter error branch too"},
{"property": "C05", "status": "proved", "theorems": ["AtomTk.C05_JK", "AtomTk.C05_JK_two", "AtomTk.C05_JK_no_core", "AtomTk.C05_unclosed"], "note": "one-core and core-plus-ancestor shapes; surrounding text without capital letters; error branch"},
{"property": "C06", "status": "proved", "theorems": ["AtomTk.C06_LK", "AtomTk.C06_LK_no_ancestor"], "note": "one ancestor; surrounding text without capital letters; error branch"},
{"property": "C07", "status": "proved", "theorems": ["AtomTk.C07_JJ_conf", "AtomTk.C07_JJ_term", "AtomTk.C07_JJ_none", "AtomTk.C07_electron_spin_zero", "AtomTk.C07_no_letter"], "note": "groups in configuration or in term; error branch; lower-case electrons get spin 0 (finding)"},
{"property": "C08", "status": "proved", "theorems": ["AtomTk.C08_parity"], "note": "all terms, all chains of copies"},
{"property": "C09", "status": "proved", "theorems": ["AtomTk.C09_names", "AtomTk.C09_names_ambiguous", "AtomTk.C09_missing"], "note": "names of NIST-shaped terms are injective; ambiguity without the shape shown"},
{"property": "C10", "status": "proved", "theorems": ["AtomTk.C10_copies_keep", "AtomTk.C10_percentage", "AtomTk.C10_copy_sets"], "note": "all chains of copies"},
{"property": "C11", "status": "partial", "theorems": ["AtomTk.C11_eq_partial", "AtomTk.C11_eq_ignores_J_fails"], "note": "equivalence relation proved; ignoring J, F, mF refutes \"tells terms apart\" (C11_eq_ignores_J_fails)"},
{"property": "C12", "status": "partial", "theorems": ["AtomTk.C12_multiterm", "AtomTk.C12_copy", "AtomTk.C12_eq_asymmetric_fails", "AtomTk.C12_eq_partial", "AtomTk.C12_eq_term", "AtomTk.C12_terms_dict_loses"], "note": "sorting, stability, attribute access, copies proved; symmetry of == fails for different lengths (C12_eq_asymmetric_fails)"},
{"property": "C13", "status": "proved", "theorems": ["AtomTk.C13_multiplet"], "note": "all half-integers I, J >= 0"},
{"property": "C14", "status": "proved", "theorems": ["AtomTk.C14_manifold", "AtomTk.C14_total"], "note": "all half-integers"},
{"property": "C18", "status": "proved", "theorems": ["AtomTk.C18_defined", "AtomTk.C18_zero", "AtomTk.C18_guards"], "note": "definedness holds for all rationals"},
{"property": "C19", "status": "proved", "theorems": ["AtomTk.C19_centroid"], "note": "all I, J, A, B, C, for the code's own (mis-normalised) octupole term too"},
{"property": "C20", "status": "partial", "theorems": ["AtomTk.C20_octupole_fails", "AtomTk.C20_stretched_partial", "AtomTk.C20_octupole_always_off"], "note": "A and B terms proved; the C coefficient is 2I-1 instead of 1 (C20_octupole_fails, C20_octupole_always_off)"},
{"property": "C21", "status": "proved", "theorems": ["AtomTk.C21_magneton", "AtomTk.C21_zero_field", "AtomTk.C21_linear", "AtomTk.C21_sum"], "note": "all F, gF, B and quadratic coefficient"},
{"property": "C22", "status": "proved", "theorems": ["AtomTk.C22_gF", "AtomTk.C22_no_spin", "AtomTk.C22_stretched"], "note": "all half-integers"},
{"property": "C23", "status": "partial", "theorems": ["AtomTk.C23_lande_partial", "AtomTk.C23_lande_fails"], "note": "percentage times the Lande formula for one LS term; with the default percentage 100 the property is false (C23_lande_fails)"},
{"property": "C36", "status": "partial", "theorems": ["AtomTk.C36_enforced_partial", "AtomTk.C36_loop_free", "AtomTk.C36_fails"], "note": "groups solvable in the built orientation, and every loop-free unpinned group; false for loops in general (C36_fails)"},
{"property": "C37", "status": "partial", "theorems": ["AtomTk.C37_first_partial", "AtomTk.C37_leaf_partial", "AtomTk.C37_fails", "AtomTk.C37_no_effect", "AtomTk.C37_up_partial", "AtomTk.C37_down", "AtomTk.C37_sides", "AtomTk.C37_mirror"], "note": "unpinned loop-free groups, leaf transitions, and enforced trees: the frequency takes effect exactly if the transition goes up as seen from the lowest level (C37_up_partial, C37_down); false in general: a re-set frequency can be overridden (C37_fails)"},
{"property": "C38", "status": "partial", "theorems": ["AtomTk.C38_fails", "AtomTk.C38_leaf_partial"], "note": "transitions whose upper end is a leaf; in an enforced tree exactly the other set transitions at the moved level break (C37_up_partial); false in general (C38_fails)"},
{"property": "C39", "status": "proved", "theorems": ["AtomTk.C39_only_group"], "note": "every reachable atom, transition and frequency, any set iteration order"},
{"property": "C40", "status": "partial", "theorems": ["AtomTk.C40_silent_on_fresh", "AtomTk.C40_fails", "AtomTk.C40_no_false_alarm_partial"], "note": "no false alarms proved; contradictory loops are never reported on fresh atoms (C40_silent_on_fresh, C40_fails)"},
{"property": "C16", "status": "partial", "theorems": ["AtomTk.C16_assigned", "AtomTk.C16_kept", "AtomTk.C16_fails", "AtomTk.C16_stale_partial"], "note": "assigned alias returns the level and survives every operation that does not assign that alias; false after deletion or when the alias contains a level marker (C16_fails)"},
{"property": "C17", "status": "proved", "theorems": ["AtomTk.C17_rank", "AtomTk.C17_extremes", "AtomTk.C17_once"], "note": "every reachable atom and integer"},
{"property": "C24", "status": "proved", "theorems": ["AtomTk.C24_rigid"], "note": "every reachable atom, fine, hyperfine and Zeeman levels"},
{"property": "C26", "status": "proved", "theorems": ["AtomTk.C26_distance", "AtomTk.C26_order", "AtomTk.C26_constructed"], "note": "every transition and state"},
{"property": "C27", "status": "partial", "theorems": ["AtomTk.C27_ends_partial", "AtomTk.C27_constructed_partial", "AtomTk.C27_fails"], "note": "upper and lower hold at construction and are exactly the two ends for ever; false after an energy change (C27_fails)"},
{"property": "C28", "status": "partial", "theorems": ["AtomTk.C28_partial", "AtomTk.C28_fails"], "note": "fine-structure keys with different energies; with equal energies the order matters (C28_fails)"},
{"property": "C29", "status": "partial", "theorems": ["AtomTk.C29_found_partial", "AtomTk.C29_connects", "AtomTk.C29_fails"], "note": "exact condition for fine-structure keys; false when the upper level was added before the lower (C29_fails)"},
{"property": "C31", "status": "partial", "theorems": ["AtomTk.C31_rules_partial", "AtomTk.C31_exclusive", "AtomTk.C31_symmetric", "AtomTk.C31_fails"], "note": "fine-structure selection rules for every transition of every history; 0 to 0 is let through (C31_fails)"},
{"property": "C42", "status": "partial", "theorems": ["AtomTk.C42_neighbours_partial", "AtomTk.C42_mutual", "AtomTk.C42_fails"], "note": "by name, every reachable atom; by alias it raises KeyError (C42_fails)"},
{"property": "C45", "status": "proved", "theorems": ["AtomTk.C45_container", "AtomTk.C45_delete"], "note": "all operation sequences"},
{"property": "C46", "status": "partial", "theorems": ["AtomTk.C46_levels_unchanged_partial", "AtomTk.C46_fails"], "note": "levels already in the atom stay; add_transition never adds a level (C46_fails)"},
{"property": "C47", "status": "partial", "theorems": ["AtomTk.C47_outside_partial", "AtomTk.C47_poisoned", "AtomTk.C47_fails"], "note": "constructor arguments whose first level is outside the atom; otherwise every later enforcement raises (C47_poisoned, C47_fails)"},
{"property": "C49", "status": "partial", "theorems": ["AtomTk.C49_partial", "AtomTk.C49_fails"], "note": "every atom whose levels have a J; a level with open J stops it half way (C49_fails)"},
{"property": "C71", "status": "partial", "theorems": ["AtomTk.C71_free_partial", "AtomTk.C71_consistent_partial", "AtomTk.C71_fails"], "note": "before the subtransitions are computed, with and without set frequencies; afterwards it raises AttributeError (C71_fails)"},
{"property": "C72", "status": "partial", "theorems": ["AtomTk.C72_never", "AtomTk.C72_raises", "AtomTk.C72_fails"], "note": "false: integer keys always raise TypeError (C72_never, C72_fails)"},
{"property": "C43", "status": "partial", "theorems": ["AtomTk.C43_distribution_partial", "AtomTk.C43_zero_partial", "AtomTk.C43_oriented_partial", "AtomTk.C43_raises_partial", "AtomTk.C43_units", "AtomTk.C43_missing_fails", "AtomTk.C43_lists_fails"], "note": "Lists, missing rates, units and the distribution when all rates are known and not all zero; ZeroDivisionError otherwise. C43_missing_fails / C43_lists_fails give the counterexamples."},
{"property": "C44", "status": "proved", "theorems": ["AtomTk.C44_lifetime", "AtomTk.C44_missing", "AtomTk.C44_channel"], "note": "Lifetime equals 1/total rate for every state with known rates, infinite without decays, and missing rates are reported."},
{"property": "C48", "status": "partial", "theorems": ["AtomTk.C48_never", "AtomTk.C48_none", "AtomTk.C48_returns_partial", "AtomTk.C48_quiet_partial", "AtomTk.C48_fails"], "note": "Nothing is ever created (C48_never), and it returns normally only if all pairs looked at are connected already (any flags); the claim that allowed pairs are created is false (C48_fails)."},
{"property": "C50", "status": "partial", "theorems": ["AtomTk.C50_loaded_partial", "AtomTk.C50_more", "AtomTk.C50_abort", "AtomTk.C50_fails", "AtomTk.C50_no_term"], "note": "Proved for tables with the default index and distinct readable names; a gap in the index loses rows (C50_fails); unreadable rows abort (C50_abort)."},
{"property": "C51", "status": "partial", "theorems": ["AtomTk.C51_missing_partial", "AtomTk.C51_unknown_partial", "AtomTk.C51_loaded_partial", "AtomTk.C51_fails"], "note": "Proved for plain names that are not aliases, numeric J entries and acceptable linewidths; a J written as a fraction aborts the load (C51_fails)."},
{"property": "C52", "status": "proved", "theorems": ["AtomTk.Strengths.C52_square", "AtomTk.Strengths.C52_nonneg", "AtomTk.Strengths.C52_selection", "AtomTk.Strengths.C52_six"], "note": "For every backend that returns Racah's values (Wig.Good) and half-integer quantum numbers; the square needs F0, F1 >= 0 only."},
{"property": "C53", "status": "partial", "theorems": ["AtomTk.Strengths.C53_factor_partial", "AtomTk.Strengths.C53_equal_partial", "AtomTk.Strengths.C53_differs", "AtomTk.Strengths.C53_fails"], "note": "False because of the factor 2*F1+2 (C53_fails, C53_differs); proved that both strengths are the same symmetric angular factor times (2F0+1)(2F1+2) and (2F1+1)(2F0+2), so they agree for F0 = F1."},
{"property": "C54", "status": "partial", "theorems": ["AtomTk.Strengths.C54_square_partial", "AtomTk.Strengths.C54_length", "AtomTk.Strengths.C54_mean", "AtomTk.Strengths.C54_magnetic", "AtomTk.Strengths.C54_fails"], "note": "Proved for tuples; an array, which the signature asks for, is rejected by lru_cache (C54_fails)."},
{"property": "C55", "status": "partial", "theorems": ["AtomTk.Strengths.C55_mean", "AtomTk.Strengths.C55_between", "AtomTk.Strengths.C55_rest", "AtomTk.Strengths.C55_geom_partial", "AtomTk.Strengths.C55_fails"], "note": "The average is proved; the geometric strength keeps a term outside the product (C55_rest), so it vanishes only if eps_y k_x + eps_x k_y = 0 (C55_fails)."},
{"property": "C56", "status": "proved", "theorems": ["AtomTk.Strengths.C56_jj", "AtomTk.Strengths.C56_jk", "AtomTk.Strengths.C56_lk", "AtomTk.Strengths.C56_returns"], "note": "Half-integer non-negative lc, lo, sc, so."},
{"property": "C57", "status": "partial", "theorems": ["AtomTk.Strengths.C57_calls_partial", "AtomTk.Strengths.C57_general", "AtomTk.Strengths.C57_vectors", "AtomTk.Strengths.C57_fails"], "note": "Proved for every sequence of calls with numbers and for any function of hashable arguments; functions with a vector argument raise TypeError on arrays (C57_vectors, C57_fails)."},
{"property": "C58", "status": "partial", "theorems": ["AtomTk.Strengths.C58_three_partial", "AtomTk.Strengths.C58_six_partial", "AtomTk.Strengths.C58_returns", "AtomTk.Strengths.C58_rejected", "AtomTk.Strengths.C58_exchange3", "AtomTk.Strengths.C58_exchange6", "AtomTk.Strengths.C58_fails"], "note": "Vanishing proved for half-integers; exchange of columns and absence of exceptions for all arguments. Other arguments are truncated by int(2x) (C58_fails)."},
{"property": "C15", "status": "partial", "theorems": ["AtomTk.C15_fine_partial", "AtomTk.C15_hyperfine_partial", "AtomTk.C15_zeeman_partial", "AtomTk.C15_complete_partial", "AtomTk.C15_mJ_partial", "AtomTk.C15_fails"], "note": "Proved for levels with half-integer J whose name contains no '=': fine, hyperfine, Zeeman and mJ= spellings, populated before or not. A configuration containing F= cannot be looked up (C15_fails)."},
{"property": "C25", "status": "partial", "theorems": ["AtomTk.C25_current_partial", "AtomTk.C25_fails"], "note": "Proved for every history in which g_J is not changed after the Zeeman sublevels of the level were accessed; the g factor is frozen at that moment (C25_fails)."},
{"property": "C30", "status": "partial", "theorems": ["AtomTk.C30_named_partial", "AtomTk.C30_exchanged_partial", "AtomTk.C30_fails", "AtomTk.C30_zeeman_partial"], "note": "a subtransition asked for by its own names is returned unless one with the names exchanged exists; on the D2 line with I=3/2 (F=1,F'=2) gives (F=2,F'=1) (C30_fails)"},
{"property": "C32", "status": "partial", "theorems": ["AtomTk.C32_sound_partial", "AtomTk.C32_complete_partial", "AtomTk.C32_fails"], "note": "soundness for every reachable atom; completeness for separated manifolds without M1 and E2 both allowed; with both, |F-F'|=2 pairs are left out (C32_fails)"},
{"property": "C33", "status": "proved", "theorems": ["AtomTk.C33_zeeman"], "note": "every reachable atom, hyperfine pair, and Wigner backend that meets Wig.Good"},
{"property": "C34", "status": "partial", "theorems": ["AtomTk.C34_values_partial", "AtomTk.C34_sum_partial", "AtomTk.C34_fails"], "note": "values, symmetry, vanishing, and the sum rule for J, J' that a dipole can connect; J=0 to J'=0 is treated as dipole with zero strengths (C34_fails)"},
{"property": "C35", "status": "partial", "theorems": ["AtomTk.C35_dipole_partial", "AtomTk.C35_quadrupole_partial", "AtomTk.C35_nonneg_partial", "AtomTk.C35_fails"], "note": "dipole and quadrupole values and signs; an E2 line F=0 to F'=2 has strength zero (C35_fails)"},
{"property": "C41", "status": "partial", "theorems": ["AtomTk.C41_hyperfine_partial", "AtomTk.C41_zeeman_partial", "AtomTk.C41_first_partial", "AtomTk.C41_fails"], "note": "upright hyperfine and Zeeman transitions whose parent's new frequency takes effect; false when the parent is overridden (C41_fails)"},
{"property": "C63", "status": "proved", "theorems": ["AtomTk.C63_lorentzian", "AtomTk.C63_shape", "AtomTk.C63_scale", "AtomTk.C63_zero_width"], "note": "all reals; zero width and other signs of the amplitude covered"},
{"property": "C64", "status": "partial", "theorems": ["AtomTk.C64_least_partial", "AtomTk.C64_ends_partial", "AtomTk.C64_unique_partial", "AtomTk.C64_moderate_partial", "AtomTk.C64_raises", "AtomTk.C64_fails", "AtomTk.C64_exists"], "note": "the least number whenever the constructor returns, and it returns for |depth| <= 124; from 125 on it raises OverflowError (C64_raises, C64_fails)"},
{"property": "C65", "status": "proved", "theorems": ["AtomTk.C65_shape", "AtomTk.C65_function", "AtomTk.C65_no_depth", "AtomTk.C65_width"], "note": "all reals, all Bessel values as a parameter"},
{"property": "C66", "status": "partial", "theorems": ["AtomTk.C66_window_partial", "AtomTk.C66_none", "AtomTk.C66_fails"], "note": "two or more points; with one point only the left end is returned (C66_fails)"},
{"property": "C73", "status": "proved", "theorems": ["AtomTk.C73_gaussian", "AtomTk.C73_fwhm", "AtomTk.C73_shape"], "note": "all reals"},
{"property": "C74", "status": "partial", "theorems": ["AtomTk.C74_lorentzian_partial", "AtomTk.C74_sidebands_partial", "AtomTk.C74_gaussian_partial", "AtomTk.C74_fails", "AtomTk.C74_thermal_iff_partial"], "note": "Lorentzian, modulated and Gaussian shapes; the thermal Gaussian's window omits the line frequency (C74_fails)"},
{"property": "C75", "status": "partial", "theorems": ["AtomTk.C75_positive_partial", "AtomTk.C75_raises", "AtomTk.C75_fails"], "note": "positive linewidths; a zero linewidth, the default, raises ZeroDivisionError (C75_raises, C75_fails)"},
{"property": "C67", "status": "proved", "theorems": ["AtomTk.C67_bbox", "AtomTk.C67_no_points", "AtomTk.C67_anchors", "AtomTk.C67_offset", "AtomTk.C67_no_anchor"], "note": "all finite lists of rational points"},
{"property": "C68", "status": "partial", "theorems": ["AtomTk.C68_drawn_partial", "AtomTk.C68_small_raises", "AtomTk.C68_fails", "AtomTk.C68_width_fails"], "note": "I+J at least 1: rows disjoint and ordered, requested width for integral I+J; I+J<1 raises ZeroDivisionError (C68_small_raises, C68_fails), half-integral I+J is drawn too wide"},
{"property": "C69", "status": "partial", "theorems": ["AtomTk.C69_lower_partial", "AtomTk.C69_gapless_partial", "AtomTk.C69_fails", "AtomTk.C69_default_raises", "AtomTk.C69_empty"], "note": "lower bound always, upper bound for shades without gaps; fails with a gap (C69_fails)"},
{"property": "C70", "status": "partial", "theorems": ["AtomTk.C70_upper_partial", "AtomTk.C70_fails"], "note": "only the upper bound is checked; the zero vector is accepted (C70_fails)"},
{"property": "C76", "status": "partial", "theorems": ["AtomTk.C76_intensity_partial", "AtomTk.C76_orthogonal_partial", "AtomTk.C76_size_partial", "AtomTk.C76_beam_raises", "AtomTk.C76_beam_errors", "AtomTk.C76_fails"], "note": "light fields; no GaussianBeam can be constructed (C76_beam_raises, C76_fails)"},
{"property": "C77", "status": "partial", "theorems": ["AtomTk.C77_widths_partial", "AtomTk.C77_fails"], "note": "widths with the factor the code uses, 4*floor(I+J)+3 instead of 2(I+J)+1 (C77_fails)"},
{"property": "C78", "status": "proved", "theorems": ["AtomTk.C78_zeeman", "AtomTk.C78_hyperfine", "AtomTk.C78_margin"], "note": "keyword arguments with the default squeeze and 0 < fill_factor < 1 C78_margin: the margins, for every table returned."},
{"property": "C59", "status": "partial", "theorems": ["AtomTk.C59_csv", "AtomTk.C59_round_trip_partial", "AtomTk.C59_fails", "AtomTk.C59_blank_partial"], "note": "atoms in which no alias equals a level's name and no level name contains F=, mF=, mJ=; any other characters allowed; text of quantities assumed exact; fails with such an alias (C59_fails)"},
{"property": "C60", "status": "partial", "theorems": ["AtomTk.C60_row", "AtomTk.C60_file_partial", "AtomTk.C60_text_partial", "AtomTk.C60_any_partial", "AtomTk.C60_crash_partial", "AtomTk.C60_which", "AtomTk.C60_dimension", "AtomTk.C60_halfway_fails", "AtomTk.C60_marker_fails", "AtomTk.C60_fails"], "note": "names without sublevel markers, errors before the first assignment of a row; an unreadable B or C value leaves the row half applied (C60_halfway_fails), an unknown name with F= raises (C60_marker_fails); C60_any_partial is for every CSV text of the rows"},
{"property": "C61", "status": "partial", "theorems": ["AtomTk.C61_rule", "AtomTk.C61_one_dot_partial", "AtomTk.C61_again_partial", "AtomTk.C61_default", "AtomTk.C61_fails"], "note": "names with at most one dot; repeated saving for names without dots; fails for x.atom.bak and a.b.atom (C61_fails)"},
{"property": "C62", "status": "partial", "theorems": ["AtomTk.C62_rule", "AtomTk.C62_groups_partial", "AtomTk.C62_fails", "AtomTk.C62_other", "AtomTk.C62_front"], "note": "as many groups in c1 as in c0 and no braces; fewer groups raise IndexError (C62_fails)"},
{"property": "C79", "status": "partial", "theorems": ["AtomTk.C79_fresh_partial", "AtomTk.C79_hyperfine_partial", "AtomTk.C79_zeeman_partial", "AtomTk.C79_mJ_partial", "AtomTk.C79_fine_partial", "AtomTk.C79_found_partial", "AtomTk.C79_overlap_raises", "AtomTk.C79_fails"], "note": "C79_fresh_partial: the first lookup of a hyperfine line by the full names of its ends computes the lines and finds the right one; other theorems: hyperfine, Zeeman and mJ names whose sublevels lie in the order of their levels; with overlapping manifolds the lookup raises KeyError (C79_overlap_raises, C79_fails)"},
{"property": "C80", "status": "partial", "theorems": ["AtomTk.C80_assigned", "AtomTk.C80_attribute", "AtomTk.C80_kept", "AtomTk.C80_unknown", "AtomTk.C80_fails", "AtomTk.C80_listed_partial"], "note": "assignment and persistence proved for all histories; a transition removed with its level is still found under its alias (C80_fails)"},
{"property": "C81", "status": "proved", "theorems": ["AtomTk.C81_listing"], "note": "all reachable atoms"},
{"property": "C82", "status": "partial", "theorems": ["AtomTk.C82_new", "AtomTk.C82_present_partial", "AtomTk.C82_contradicts", "AtomTk.C82_replaced", "AtomTk.C82_fails"], "note": "pairs without a transition and pairs listed in the order named; the reverse order replaces the transition (C82_replaced, C82_fails), an order that contradicts the energies raises KeyError (C82_contradicts)"},
{"property": "C83", "status": "proved", "theorems": ["AtomTk.C83_one_rounding", "AtomTk.C83_silent", "AtomTk.C83_error", "AtomTk.C83_path", "AtomTk.C83_exact", "AtomTk.C83_dbl"], "note": "any rounding function; 53-bit round-to-even is one with relative error 2^-53; C83_path: along k set transitions the error of the sum is at most k roundings"},
{"property": "C84", "status": "partial", "theorems": ["AtomTk.C84_settled_partial", "AtomTk.C84_fails", "AtomTk.C84_moves_fails"], "note": "settled atoms; in doubles a second enforcement can warn about a loop (C84_fails) and move the lowest level (C84_moves_fails)"},
{"property": "C85", "status": "partial", "theorems": ["AtomTk.Nist.C85_cut_partial", "AtomTk.Nist.C85_no_limit", "AtomTk.Nist.C85_no_levels", "AtomTk.Nist.C85_missing", "AtomTk.Nist.C85_fails"], "note": "tables with a limit row; without one nothing is left (C85_no_limit, C85_fails), without levels ValueError (C85_no_levels)"},
{"property": "C86", "status": "partial", "theorems": ["AtomTk.Nist.C86_separate_partial", "AtomTk.Nist.C86_columns_partial", "AtomTk.Nist.C86_fails"], "note": "all columns but the second term always (C86_columns_partial), all columns when every second component can be given a term; one that cannot takes the second terms of all rows away (C86_fails)"},
{"property": "C87", "status": "partial", "theorems": ["AtomTk.Nist.C87_leading_partial", "AtomTk.Nist.C87_jj", "AtomTk.Nist.C87_fails"], "note": "cells with a second component; a lone percentage such as 95 is read as 100 (C87_fails)"},
{"property": "C88", "status": "partial", "theorems": ["AtomTk.Nist.C88_taken_partial", "AtomTk.Nist.C88_none", "AtomTk.Nist.C88_kept", "AtomTk.Nist.C88_fails"], "note": "terms without spaces; of a term with a space only the first word is taken (C88_fails)"},
{"property": "C89", "status": "proved", "theorems": ["AtomTk.Nist.C89_each"], "note": "cells of half-integers with any of the four separators"},
{"property": "C90", "status": "partial", "theorems": ["AtomTk.C90_lead_partial", "AtomTk.C90_same", "AtomTk.C90_converted", "AtomTk.C90_equal", "AtomTk.C90_unknown", "AtomTk.C90_zero", "AtomTk.C90_fails"], "note": "False for mixtures: L and S of the leading component are used for all, percentages are not divided by 100, equal percentages collapse, an unknown component gives 0, J=0 gives nan. Proved: the value the code does compute, for every list of LS components."},
{"property": "C91", "status": "partial", "theorems": ["AtomTk.C91_label", "AtomTk.C91_lk", "AtomTk.C91_jk_partial", "AtomTk.C91_jj_partial", "AtomTk.C91_term", "AtomTk.C91_missing", "AtomTk.C91_fails"], "note": "Proved for LK in full and for JK and JJ when lc+lo <= 20 (JK with a sign convention squaring to one, JJ with faithful 9j). C91_missing: a quantum number that is not given is a TypeError. Fails for L >= 21: IndexError."},
{"property": "C92", "status": "partial", "theorems": ["AtomTk.C92_even_partial", "AtomTk.C92_fails"], "note": "Holds for even terms and for LS terms; a coupled term loses its star."},
{"property": "C93", "status": "partial", "theorems": ["AtomTk.C93_empty_partial", "AtomTk.C93_fails"], "note": "Such states give an empty list; the ValueError in the code is unreachable."},
{"property": "C94", "status": "partial", "theorems": ["AtomTk.C94_amplitudes_partial", "AtomTk.C94_fails"], "note": "The code weights with the amplitudes, not their squares; the value it computes is proved, and a level with a negative factor is exhibited."},
{"property": "C95", "status": "partial", "theorems": ["AtomTk.C95_lk", "AtomTk.C95_jk_partial", "AtomTk.C95_jj_partial", "AtomTk.C95_term_partial", "AtomTk.C95_fails"], "note": "Proved for the three conversions on numbers that couple (lc+lo <= 20); from the text it fails where the parser reads spin 0 for a single electron (C95_fails)."},
{"property": "C96", "status": "proved", "theorems": ["AtomTk.C96_sums"], "note": "all spins and parities; Wigner backend faithful (Wig.Good)"},
{"property": "C97", "status": "partial", "theorems": ["AtomTk.C97_dipole_partial", "AtomTk.C97_quadrupole_partial", "AtomTk.C97_fails"], "note": "Proved for the dipole types and for E2 with F'=F; E2 from F=0 to F'=2 has no strength at all (C97_fails)."},
{"property": "C98", "status": "partial", "theorems": ["AtomTk.C98_dipole_partial", "AtomTk.C98_fails"], "note": "Proved for lines with a dipole type; the E2 line J=0 to J'=2 with I=0 has strength zero (C98_fails)."},
{"property": "C99", "status": "partial", "theorems": ["AtomTk.C99_stays_pinned", "AtomTk.C99_settled_partial", "AtomTk.C99_fails"], "note": "Levels stay pinned, and nothing moves when all set transitions lie between pinned levels the right way round, however contradictory; false when a pinned upper level has come to lie below its lower one (C99_fails)."},
{"property": "C100", "status": "partial", "theorems": ["AtomTk.C100_listed_partial", "AtomTk.C100_fails"], "note": "Exactly the hyperfine levels within the reach of the selection rule on F are listed, each with its transition, once each, also when asked again; forbidden pairs such as F=0 to F'=0 are listed as well (C100_fails), and pairs at distance 2 are missing when M1 and E2 are both allowed."},
{"property": "C101", "status": "partial", "theorems": ["AtomTk.C101_lifetime_partial", "AtomTk.C101_fails", "AtomTk.C101_missing"], "note": "The lifetime comes out as that of the level times (2J+1)/(2F+1) (proved for every atom and F), hence false (C101_fails)."},
{"property": "C102", "status": "proved", "theorems": ["AtomTk.C102_branching", "AtomTk.C102_missing"], "note": ""},
{"property": "C103", "status": "partial", "theorems": ["AtomTk.Strengths.C103_dipole_partial", "AtomTk.Strengths.C103_dipole_mel_partial", "AtomTk.Strengths.C103_quad_partial", "AtomTk.Strengths.C103_fails", "AtomTk.Strengths.C103_two_fails", "AtomTk.Strengths.C103_strength_fails"], "note": "Proved for the dipole functions and for E2_mel_geom unless M stays or changes by two; E2_mel_geom is wrong for these (C103_fails, C103_two_fails), E2_transition_strength_geom even for M changing by one (C103_strength_fails)."},
{"property": "C104", "status": "partial", "theorems": ["AtomTk.Strengths.C104_plane_partial", "AtomTk.Strengths.C104_central_partial", "AtomTk.Strengths.C104_fails"], "note": "Proved for M changing by one and light in the xz plane; false in general (C104_fails)."},
{"property": "C105", "status": "proved", "theorems": ["AtomTk.C105_hyperfine", "AtomTk.C105_zeeman", "AtomTk.C105_order"], "note": "For the default of squeeze, positive widths and fill factors between 0 and 1."},
{"property": "C106", "status": "partial", "theorems": ["AtomTk.C106_steps_partial", "AtomTk.C106_zeeman", "AtomTk.C106_fails", "AtomTk.C106_order_fails"], "note": "Equally spaced in F, with the step given by the outermost F; the lines are half a step too low (C106_fails) and ordered by F even where that is not the order of the energies (C106_order_fails)."},
{"property": "C107", "status": "partial", "theorems": ["AtomTk.C107_listed_partial", "AtomTk.C107_fails"], "note": "Exactly the Zeeman levels within the reach of the selection rules on F and m are listed, each with its transition, once each, also when asked again; forbidden pairs such as F=0 to F'=0 are listed as well (C107_fails), and pairs at distance 2 are missing when M1 and E2 are both allowed."},
{"property": "C108", "status": "partial", "theorems": ["AtomTk.C108_lifetime_partial", "AtomTk.C108_fails", "AtomTk.C108_missing"], "note": "For dipole lines the lifetime comes out as that of the level times 2J+1, whatever F and m (proved), hence false (C108_fails). Quadrupole lines have wrong strengths already (C97, C98) and are left out."},
{"property": "C109", "status": "proved", "theorems": ["AtomTk.C109_branching", "AtomTk.C109_missing"], "note": ""},
{"property": "C110", "status": "proved", "theorems": ["AtomTk.Nist.C110_text", "AtomTk.Nist.C110_every", "AtomTk.Nist.C110_decoration", "AtomTk.Nist.C110_shown", "AtomTk.Nist.C110_numbers"], "note": ""},
{"property": "C111", "status": "proved", "theorems": ["AtomTk.Load.C111_caller", "AtomTk.Load.C111_columns", "AtomTk.Load.C111_missing", "AtomTk.Load.C111_none", "AtomTk.Load.C111_loads"], "note": "That the dictionary is optional in the signature but required by the code is recorded (C111_none)."},
{"property": "C112", "status": "partial", "theorems": ["AtomTk.Load.C112_rates_partial", "AtomTk.Load.C112_never", "AtomTk.Load.C112_fails"], "note": "True of the rates (C112_rates_partial). No frequency ever gets a unit (C112_never, C112_fails); populate_transitions_df hands it on as it is and enforce_consistency then asks it for .to(Hz)."},
{"property": "C113", "status": "partial", "theorems": ["AtomTk.Load.C113_default", "AtomTk.Load.C113_fails", "AtomTk.Load.C113_explicit_partial"], "note": "With the default columns no file can be read: KeyError always (C113_default, C113_fails). With a dictionary having the key 'Level (cm-1)' it holds (C113_explicit_partial, for numeric level columns; texts are C114)."},
{"property": "C114", "status": "partial", "theorems": ["AtomTk.Load.C114_clean_partial", "AtomTk.Load.C114_decimal_partial", "AtomTk.Load.C114_fails"], "note": "True if all cells can be read (C114_clean_partial), and always for unsigned decimals, with or without marks around them (C114_decimal_partial). One unreadable cell strips the signs of all others (C114_fails)."},
{"property": "C115", "status": "partial", "theorems": ["AtomTk.C115_table_partial", "AtomTk.C115_raises", "AtomTk.C115_csv", "AtomTk.C115_hf_abort", "AtomTk.C115_abort", "AtomTk.C115_fails"], "note": "Proved with a transition table (C115_table_partial). Without one the call raises KeyError for every table with a level of J at most 20 (C115_raises, C115_fails); with transitions_csv it raises NotImplementedError (C115_csv)."},
{"property": "C116", "status": "proved", "theorems": ["AtomTk.C116_hyperfine", "AtomTk.C116_zeeman", "AtomTk.C116_nothing_below"], "note": ""},
{"property": "C117", "status": "partial", "theorems": ["AtomTk.C117_hyperfine_partial", "AtomTk.C117_zeeman_partial", "AtomTk.C117_absent", "AtomTk.C117_fails"], "note": "Proved for levels already populated with more than one sublevel (C117_hyperfine_partial, C117_zeeman_partial); absent keys raise KeyError (C117_absent). False in general (C117_fails): the last sublevel comes back as a new object at the next access, and deletion before the first access raises KeyError."},
{"property": "C118", "status": "partial", "theorems": ["AtomTk.C118_method_partial", "AtomTk.C118_append", "AtomTk.C118_del_raises", "AtomTk.C118_fails"], "note": "Both statements always raise TypeError because the methods have the wrong number of arguments (C118_fails). Called as a method with two names, deletion removes exactly the one transition (C118_method_partial); append is add_transition (C118_append)."},
{"property": "C119", "status": "partial", "theorems": ["AtomTk.C119_levels", "AtomTk.C119_transitions_partial", "AtomTk.C119_fails"], "note": "Proved for the levels (C119_levels) and for transitions between listed levels (C119_transitions_partial). Transitions do not bring their levels (C119_fails), against the docstring."},
{"property": "C120", "status": "partial", "theorems": ["AtomTk.C120_width_partial", "AtomTk.C120_profile_partial", "AtomTk.C120_phase", "AtomTk.C120_radius", "AtomTk.C120_axis_partial", "AtomTk.C120_magnetic_zero", "AtomTk.C120_magnetic", "AtomTk.C120_fails", "AtomTk.C120_circular_fails"], "note": "Width, profile, phase and radius are as claimed; radius_at raises at the waist. False: E multiplies the polarisation in twice, so circular light comes out linearly polarised (C120_circular_fails), and B takes the cross product with the polarisation instead of the direction, so it is zero for light polarised along an axis (C120_magnetic_zero, C120_fails). The constructor never returns a beam (C76_beam_raises): the theorems are about objects with the attributes set."},
{"property": "C121", "status": "partial", "theorems": ["AtomTk.C121_aims_partial", "AtomTk.C121_weights_partial", "AtomTk.C121_not_drawn_raises", "AtomTk.C121_override_raises", "AtomTk.C121_gross_partial", "AtomTk.C121_stale", "AtomTk.C121_fails"], "note": "Proved: an arrow is at the anchors of the first line of the nearest level drawn (C121_aims_partial), for new diagrams of gross structure it connects the middles of the lines asked for (C121_gross_partial), levels not drawn raise IndexError or ValueError (C121_not_drawn_raises). False: lines of earlier renderings stay in the table and the first one counts, so after a change of energy arrows end at the old height (C121_fails). The keyword override_bbox always raises (C121_override_raises)."},
{"property": "C122", "status": "partial", "theorems": ["AtomTk.C122_appends", "AtomTk.C122_twice_partial", "AtomTk.C122_fails", "AtomTk.C122_other_raises"], "note": "False (C122_fails): render_levels appends to lines_df, so every line is there twice after the second call. Proved instead: for every diagram a rendering shows the lines of the renderings before followed by those of a new diagram (C122_appends), for gross structure exactly each line twice (C122_twice_partial). C122_other_raises: unknown strategies."},
{"property": "C123", "status": "partial", "theorems": ["AtomTk.C123_hyperfine_partial", "AtomTk.C123_zeeman", "AtomTk.C123_gross", "AtomTk.C123_manifold", "AtomTk.C123_unsqueezed", "AtomTk.C123_fails", "AtomTk.C123_displaced"], "note": "Hyperfine levels: C123_hyperfine_partial; Zeeman levels with the Zeeman strategy: C123_zeeman (J + I at least 1, otherwise drawing raises, C68_small_raises). False for Zeeman levels with the hyperfine strategy: the shift taken is the Zeeman shift alone, so the line is drawn as if there were no hyperfine shift (C123_fails). Also C123_gross, C123_manifold, C123_unsqueezed: what is drawn at each level of detail. C123_displaced: exactly where a Zeeman level with the hyperfine strategy is drawn."},
{"property": "C124", "status": "partial", "theorems": ["AtomTk.C124_same_colour_partial", "AtomTk.C124_places", "AtomTk.C124_rectangles", "AtomTk.C124_mixed", "AtomTk.C124_fails"], "note": "Places and rectangles are right for all tables (C124_places, C124_rectangles), colours if all are the same (C124_same_colour_partial). False otherwise (C124_fails): there are two brackets per line but one colour per boxed line of any kind, and matplotlib uses the colours in turn, so with a red and a blue line all left brackets are red and all right ones blue."},
{"property": "C125", "status": "partial", "theorems": ["AtomTk.C125_gravity_partial", "AtomTk.C125_fails", "AtomTk.C125_inside_fails"], "note": "Proved for transitions with a rate between manifolds that do not overlap (C125_gravity_partial). False for a transition without a rate, all lines of which get the strength 1 (C125_fails), and for overlapping manifolds, such as a transition inside a level (C125_inside_fails)."},
{"property": "C126", "status": "partial", "theorems": ["AtomTk.C126_sum", "AtomTk.C126_single", "AtomTk.C126_order", "AtomTk.C126_above", "AtomTk.C126_empty_raises", "AtomTk.C126_inside_partial", "AtomTk.C126_fails"], "note": "All but the last part hold (C126_sum, C126_order, C126_single, C126_above, and C126_inside_partial where all curves are drawn). The last part is false (C126_fails): np.interp continues a curve beside its window with the height of its end point, so far lines lift the total everywhere."},
{"property": "C127", "status": "partial", "theorems": ["AtomTk.C127_list_partial", "AtomTk.C127_hyperfine_partial", "AtomTk.C127_zeeman_partial", "AtomTk.C127_default_raises", "AtomTk.C127_one_raises", "AtomTk.C127_list_raises", "AtomTk.C127_default_error", "AtomTk.C127_colouring_raises", "AtomTk.C127_temperature", "AtomTk.C127_empty_raises", "AtomTk.C127_fails"], "note": "Proved for a line shape object and lists (C127_list_partial, C127_hyperfine_partial, C127_zeeman_partial). False with the default line shape, which is a class (C127_fails, C127_default_raises); plot_spectrum of one transition always raises (C127_one_raises), plot_zeeman_spectrum of a list of transitions too (C127_list_raises). Also C127_default_error, C127_colouring_raises, C127_empty_raises, C127_temperature."},
{"property": "C128", "status": "partial", "theorems": ["AtomTk.C128_hyperfine_partial", "AtomTk.C128_zeeman_partial", "AtomTk.C128_lowest_raises", "AtomTk.C128_exchanged_fails", "AtomTk.C128_fails"], "note": "Proved but for membership: t[key] also accepts the names exchanged, which `in` does not (C128_hyperfine_partial, C128_zeeman_partial, C128_exchanged_fails, C128_fails). Every such method of a Zeeman transition raises an AssertionError (C128_lowest_raises)."},
{"property": "C129", "status": "partial", "theorems": ["AtomTk.C129_set_partial", "AtomTk.C129_del_partial", "AtomTk.C129_unknown", "AtomTk.C129_first_set", "AtomTk.C129_last_del", "AtomTk.C129_fails"], "note": "Proved for transitions whose dictionary was computed before, and for deletions that leave an entry (C129_set_partial, C129_del_partial, C129_unknown). False otherwise: an assignment to a fresh transition suppresses the computation of the others (C129_first_set), a deletion from one raises, and deleting the last entry brings all of them back (C129_last_del); C129_fails."},
{"property": "C130", "status": "partial", "theorems": ["AtomTk.C130_partial", "AtomTk.C130_named_partial", "AtomTk.C130_plain", "AtomTk.C130_refused", "AtomTk.C130_fails"], "note": "Proved for the name of the file written and for names ending in .atom (C130_partial, C130_named_partial, C130_refused). False for a name without a dot: save appends .atom, load does not (C130_plain, C130_fails)."},
{"property": "C131", "status": "partial", "theorems": ["AtomTk.C131_gravity_partial", "AtomTk.C131_total_partial", "AtomTk.C131_fails"], "note": "Proved for Zeeman levels that do not overlap, for every type and with or without a rate (C131_gravity_partial); sum of the strengths for dipole transitions with a rate (C131_total_partial). False for overlapping levels, such as a hyperfine level and itself (C131_fails)."},
{"property": "C132", "status": "partial", "theorems": ["AtomTk.C132_new", "AtomTk.C132_agree_partial", "AtomTk.C132_replaces", "AtomTk.C132_refused", "AtomTk.C132_ignored", "AtomTk.C132_fails"], "note": "Making the transition is proved for all pairs of levels (C132_new), agreement with the names as long as the levels are not joined already (C132_agree_partial). For a pair joined already the names give the transition that is there while the levels replace it silently (C132_replaces, C132_fails). Two levels not in a pair raise, as in species/Yb_II_171.py (C132_refused); data given along with a transition object are ignored (C132_ignored)."},
{"property": "C133", "status": "partial", "theorems": ["AtomTk.C133_product_partial", "AtomTk.C133_raises", "AtomTk.C133_order", "AtomTk.C133_ritz", "AtomTk.C133_sub", "AtomTk.C133_units", "AtomTk.C133_set_nm", "AtomTk.C133_set_partial", "AtomTk.C133_fails"], "note": "Proved for transitions between levels of different energies (C133_product_partial), with order (C133_order), the sum rule (C133_ritz), hyperfine and Zeeman transitions (C133_sub), wavenumbers (C133_units) and setting a wavelength (C133_set_nm, C133_set_partial). Between levels of the same energy the wavelength raises ZeroDivisionError (C133_raises, C133_fails)."},
{"property": "C134", "status": "proved", "theorems": ["AtomTk.C134_kept", "AtomTk.C134_assigned", "AtomTk.C134_energies"], "note": "C134_kept and C134_assigned hold for every history; C134_energies puts them together with C25 and has its condition on Lande factors assigned too late (for any level)."},
{"property": "C135", "status": "partial", "theorems": ["AtomTk.C135_containers_partial", "AtomTk.C135_empty_raises", "AtomTk.C135_multi_raises", "AtomTk.C135_fresh", "AtomTk.C135_level_partial", "AtomTk.C135_rest", "AtomTk.C135_kind", "AtomTk.C135_fails"], "note": "Proved for containers that are not empty, atoms, transitions and levels whose sublevels were asked for before (C135_containers_partial, C135_level_partial, C135_rest). Empty containers raise IndexError, every MultiTerm raises TypeError, a level shows 0 sublevels before they are first asked for (C135_empty_raises, C135_multi_raises, C135_fresh, C135_fails)."},
{"property": "C136", "status": "partial", "theorems": ["AtomTk.C136_call_partial", "AtomTk.C136_calls_partial", "AtomTk.C136_single", "AtomTk.C136_fails"], "note": "Proved for all programs with two atoms in which no level is added to both (C136_call_partial, C136_calls_partial), and a program touching one atom only acts as on that atom alone (C136_single). False when a level is added to both: the level is one object, so enforcing frequencies in one atom moves it in the other (C136_fails)."},
{"property": "C137", "status": "partial", "theorems": ["AtomTk.C137_spin_partial", "AtomTk.C137_levels", "AtomTk.C137_fails", "AtomTk.C137_missing", "AtomTk.C137_lookup"], "note": "Proved for programs that add no level to two atoms (C137_spin_partial, C137_levels). False otherwise: sublevels computed in one atom stay when the level is added to an atom of another spin, and the right ones are missing (C137_fails, C137_missing); C137_lookup: shared levels take their sublevels from the atom they were added to last, in lookups by name too"},
{"property": "C138", "status": "partial", "theorems": ["AtomTk.C138_first_partial", "AtomTk.C138_fails"], "note": "Proved for programs that share no level, for the groups of C37_first_partial (C138_first_partial). False once the first level of the transition is added to a second atom: the frequencies of that one are enforced and the transition keeps its old frequency (C138_fails)."},
{"property": "C139", "status": "partial", "theorems": ["AtomTk.C139_plain_partial", "AtomTk.C139_iff", "AtomTk.C139_fails"], "note": "Proved without A_coeff (C139_plain_partial). With A_coeff = a >= 0 the lines agree exactly for a = 0 (C139_iff, C139_fails): one class adds A_coeff to gamma as it is, the other divides it by 2 pi 10^6 first."},
{"property": "C140", "status": "partial", "theorems": ["AtomTk.C140_ten_partial", "AtomTk.C140_order", "AtomTk.C140_first", "AtomTk.C140_clash", "AtomTk.C140_raises", "AtomTk.C140_fails"], "note": "Proved for at most ten different values (C140_ten_partial), with the order of colours (C140_order, C140_first); a value not in the list raises (C140_raises). False for every list with more (C140_clash, C140_fails): tab10 has ten colours and gives its last one for every larger index, e.g. the sublevels of F = 5."},
{"property": "C141", "status": "partial", "theorems": ["AtomTk.C141_missing", "AtomTk.C141_add_partial", "AtomTk.C141_sublevels", "AtomTk.C141_ghost", "AtomTk.C141_fails"], "note": "False: the constructor stores the atom in the level but does not add the level to the atom's graph, so the atom neither lists nor finds it (C141_missing, for every reachable atom and unused name; C141_fails). Followed by add_level it is as a level made without parent (C141_add_partial). Its sublevels can be computed (C141_sublevels); a transition between two such levels is listed by atom.transitions although its levels are not, and looking it up raises KeyError (C141_ghost)."},
{"property": "C142", "status": "partial", "theorems": ["AtomTk.C142_levels_partial", "AtomTk.C142_raises", "AtomTk.C142_fails"], "note": "Proved for 'norm' (C142_levels_partial). False for 'hf' and 'z': positions are taken for the keys of the attribute tables, which have no nodes for sublevels, and networkx raises as soon as one sublevel exists (C142_raises, C142_fails)."},
{"property": "C143", "status": "partial", "theorems": ["AtomTk.C143_hot_partial", "AtomTk.C143_hot_thermal_partial", "AtomTk.C143_wide", "AtomTk.C143_high", "AtomTk.C143_fails"], "note": "False: sigma is computed with the factor 8 of the formula for the full width at half maximum without its ln 2, so the line is that of eight times the temperature (C143_hot_partial, C143_hot_thermal_partial), sqrt 8 times too wide (C143_wide) and too high everywhere off the centre (C143_high); C143_fails."},
{"property": "C144", "status": "partial", "theorems": ["AtomTk.C144_limits_partial", "AtomTk.C144_low", "AtomTk.C144_half", "AtomTk.C144_jump", "AtomTk.C144_fails"], "note": "Proved when one width is more than 25 times the other (C144_limits_partial). False in between: scipy's Voigt profile has area 1, so the line is nowhere higher than ampl/(sqrt(2 pi) sigma x0) (C144_low, C144_half) and the height jumps at the cutoff (C144_jump); C144_fails."},
{"property": "C145", "status": "proved", "theorems": ["AtomTk.C145_history", "AtomTk.C145_observed", "AtomTk.C145_unit"], "note": "C145_history: the run in the other unit is the run in the old one, counted in the other unit, with the same outcomes, for all calls and all states; C145_observed: what that means for energies, frequencies, lookups, names and warnings; C145_unit: the unit alone from the construction on. Floats are rationals in the model, so rounding is not covered."},
{"property": "C146", "status": "proved", "theorems": ["AtomTk.C146_invisible", "AtomTk.C146_same", "AtomTk.C146_hyperfine", "AtomTk.C146_lookups"], "note": "C146_invisible for all programs; C146_same and C146_hyperfine say what stays the same; C146_lookups lists the lookups. Two limits belong to the claim: Zeeman levels keep a Lande factor computed before a later assignment (C25), and calls on sublevel objects need the sublevels to exist."},
{"property": "C147", "status": "proved", "theorems": ["AtomTk.C147_sum", "AtomTk.C147_loop", "AtomTk.C147_hyperfine"], "note": "C147_sum, C147_loop for ways of any length, C147_hyperfine for a hyperfine line against its transition. Rounding is not covered."},
{"property": "C148", "status": "proved", "theorems": ["AtomTk.C148_interval", "AtomTk.C148_levels", "AtomTk.C148_linear"], "note": "C148_interval, C148_levels (the levels in an atom), C148_linear."},
{"property": "C149", "status": "proved", "theorems": ["AtomTk.C149_rank", "AtomTk.C149_order"], "note": "C149_rank (any two reachable atoms), C149_order (any permutation of the levels added). With equal energies the level at a rank is the one added first, so only the energy agrees."},
{"property": "C150", "status": "partial", "theorems": ["AtomTk.C150_some_order", "AtomTk.C150_outward_partial", "AtomTk.C150_joined", "AtomTk.C150_fails"], "note": "C150_outward_partial for every outward order; C150_joined: a call between two pinned levels changes no energy; C150_fails with a ladder of four levels whose outer steps are set first. C150_some_order: in an atom without set frequencies every loop-free set of transitions has an order that works."},
{"property": "C151", "status": "partial", "theorems": ["AtomTk.C151_173_partial", "AtomTk.C151_174_partial", "AtomTk.C151_two", "AtomTk.C151_171_raises", "AtomTk.C151_171_partial", "AtomTk.C151_fails"], "note": "C151_173_partial, C151_174_partial: success, frequencies and rates; C151_171_raises for all atoms, C151_171_partial: TypeError, after three frequencies have been met; C151_fails. The tables themselves and Atom.save are not modelled. C151_two: two positional names, levels or sublevels."},
{"property": "C152", "status": "proved", "theorems": ["AtomTk.C152_mirror", "AtomTk.C152_normal"], "note": "C152_mirror, C152_normal. The conditions are part of the claim; for overlapping manifolds C131_fails has a pattern that is not symmetric."},
{"property": "C153", "status": "proved", "theorems": ["AtomTk.Nist.C153_atom"], "note": "C153_atom. The shape of the rows (LS terms) and the different names are part of the claim; C50_fails and C85_no_limit treat repeated names and tables without a limit."},
{"property": "C154", "status": "partial", "theorems": ["AtomTk.Strengths.C154_exact_partial", "AtomTk.Strengths.C154_vectors", "AtomTk.Strengths.C154_axes", "AtomTk.Strengths.C154_turned", "AtomTk.Strengths.C154_silent", "AtomTk.Strengths.C154_false_alarm", "AtomTk.Strengths.C154_fails"], "note": "C154_exact_partial, C154_axes, C154_turned, C154_silent; C154_fails: in doubles (2, 3, 6) and (3, -6, 2), both of length 7, are at right angles and the warning is given."},
{"property": "C155", "status": "partial", "theorems": ["AtomTk.C155_enforce", "AtomTk.C155_present_partial", "AtomTk.C155_fails"], "note": "C155_present_partial (transitions with the upper level not below the lower one) and C155_enforce; C155_fails: g at 0 and a at -5, with the transition built with a above and set to 5, the frequency it has; setting it to 5 moves a to 5."},
{"property": "C156", "status": "partial", "theorems": ["AtomTk.C156_scan_partial", "AtomTk.C156_undo_partial", "AtomTk.C156_fails", "AtomTk.C156_tree_partial", "AtomTk.C156_tree_undo_partial"], "note": "C156_scan_partial and C156_undo_partial for a transition whose upper level has no other set transition, in an atom otherwise pinned and met; C156_tree_partial and C156_tree_undo_partial inside an enforced tree, where the scan breaks the other set transitions at the level moved and setting back mends them (excluded: frequencies that turn one of them upside down, C37_mirror); C156_fails: set to zero and back to 1, the upper level stays where the zero put it, because set_frequency releases it only if the earlier set frequency is truthy."},
{"property": "C157", "status": "proved", "theorems": ["AtomTk.C157_whole", "AtomTk.C157_mean"], "note": "C157_whole, C157_mean. The Zeeman levels of one hyperfine level have one and the same Lande factor in every reachable state (SameG), also when g_J was changed in between."},
{"property": "C158", "status": "partial", "theorems": ["AtomTk.C158_atomic_partial", "AtomTk.C158_as_if_partial", "AtomTk.C158_alias_kept", "AtomTk.C158_listed", "AtomTk.C158_edge_set", "AtomTk.C158_fails"], "note": "C158_atomic_partial and C158_as_if_partial exclude the three calls (Op.Leaky); C158_alias_kept, C158_listed, C158_edge_set say what they leave behind in general; C158_fails refutes the claim as stated. The constructor of Transition is C47."},
{"property": "C159", "status": "partial", "theorems": ["AtomTk.C159_field_partial", "AtomTk.C159_energy", "AtomTk.C159_mirror_partial", "AtomTk.C159_reversal_partial", "AtomTk.C159_fails"], "note": "C159_field_partial, C159_energy, C159_mirror_partial, C159_reversal_partial; C159_fails is the assignment to the energy of a Zeeman level."},
{"property": "C160", "status": "partial", "theorems": ["AtomTk.C160_bound", "AtomTk.C160_check_partial", "AtomTk.C160_no_false", "AtomTk.C160_fails", "AtomTk.C160_warns_without_loop"], "note": "C160_bound and C160_no_false hold for all triggers and also with loops; C160_check_partial gives the exact number for trees of pinned levels; C160_warns_without_loop; C160_fails is the triangle of C40."},
{"property": "C161", "status": "partial", "theorems": ["AtomTk.C161_pinning", "AtomTk.C161_same_partial", "AtomTk.C161_program_partial", "AtomTk.C161_fails", "AtomTk.C161_loop"], "note": "C161_pinning holds for all atoms; C161_same_partial (one enforcement) and C161_program_partial (programs, also with set_frequency and add_transition) give equality of the whole atom; C161_fails: g-a 1, b-a 3 with g and b at 0 gives a at 1 or at 3; C161_loop: the triangle 1, 1, 5 puts b at 2 or at 5."},
{"property": "C162", "status": "partial", "theorems": ["AtomTk.C162_two_partial", "AtomTk.C162_any_order_partial", "AtomTk.C162_fails"], "note": "C162_two_partial and C162_any_order_partial; C162_fails within a group. Frequencies set for the first time are not covered: they change the set of nodes networkx iterates (C161)."},
{"property": "C163", "status": "proved", "theorems": ["AtomTk.C163_groups", "AtomTk.C163_group"], "note": "Holds with loops and with frequencies that cannot be met. The iteration order of the sets is the same in all calls."},
{"property": "C164", "status": "partial", "theorems": ["AtomTk.C164_single_partial", "AtomTk.C164_second_group", "AtomTk.C164_other_name", "AtomTk.C164_level", "AtomTk.C164_hyperfine", "AtomTk.C164_two_characters", "AtomTk.C164_zeeman", "AtomTk.C164_transition", "AtomTk.C164_none_set", "AtomTk.C164_fails", "AtomTk.C164_name_fails"], "note": "C164_single_partial; the other branches C164_second_group, C164_other_name, C164_two_characters, C164_level, C164_hyperfine, C164_zeeman, C164_transition, C164_none_set; C164_fails (level objects) and C164_name_fails (names). Names of one character are modelled but not covered by the error theorems; the subtransitions of a transition object are taken to be computed already."},
{"property": "C165", "status": "partial", "theorems": ["AtomTk.C165_alone_partial", "AtomTk.C165_moves", "AtomTk.C165_pinned", "AtomTk.C165_removed", "AtomTk.C165_again", "AtomTk.C165_fails"], "note": "C165_alone_partial, C165_moves, C165_pinned, C165_removed; C165_again: set_frequency works; C165_fails: replacing a transition by one with another frequency has no effect but a warning."},
{"property": "C166", "status": "partial", "theorems": ["AtomTk.C166_value", "AtomTk.C166_errors", "AtomTk.C166_same", "AtomTk.C166_back", "AtomTk.C166_read_errors", "AtomTk.C166_ground", "AtomTk.C166_linear", "AtomTk.C166_level_partial", "AtomTk.C166_sublevel_partial", "AtomTk.C166_sublevel_raises", "AtomTk.C166_level_raises", "AtomTk.C166_no_energy", "AtomTk.C166_new", "AtomTk.C166_constants", "AtomTk.C166_field", "AtomTk.C166_subtransition", "AtomTk.C166_fails", "AtomTk.C166_sublevel_fails"], "note": "C166_value, C166_back, C166_level_partial, C166_sublevel_partial; C166_fails: a level cannot be put at 0 cm^-1; C166_sublevel_fails: a hyperfine level cannot be put at 1 cm^-1."},
{"property": "C167", "status": "partial", "theorems": ["AtomTk.C167_factor", "AtomTk.C167_factors", "AtomTk.C167_moment_partial", "AtomTk.C167_stretched", "AtomTk.C167_fails"], "note": "C167_moment_partial, C167_factors, C167_factor, C167_stretched; C167_fails: after a late assignment of lande (C25)."},
{"property": "C168", "status": "proved", "theorems": ["AtomTk.C168_recover", "AtomTk.C168_unique", "AtomTk.C168_blind", "AtomTk.C168_variance", "AtomTk.C168_levels"], "note": "C168_recover, C168_unique, C168_blind, C168_variance, C168_levels."},
{"property": "C169", "status": "partial", "theorems": ["AtomTk.C169_never", "AtomTk.C169_pair", "AtomTk.C169_key", "AtomTk.C169_table", "AtomTk.C169_fails", "AtomTk.C169_mixed", "AtomTk.C169_names_partial"], "note": "C169_names_partial (names), C169_never, C169_pair, C169_key, C169_mixed, C169_table; C169_fails: with two levels it raises KeyError."},
{"property": "C170", "status": "partial", "theorems": ["AtomTk.C170_what", "AtomTk.C170_elsewhere", "AtomTk.C170_good", "AtomTk.C170_raises_partial", "AtomTk.C170_poisoned", "AtomTk.C170_poisoned_set", "AtomTk.C170_fails", "AtomTk.C170_order", "AtomTk.C170_undone_fails"], "note": "C170_what, C170_raises_partial (no loops), C170_poisoned, C170_poisoned_set, C170_elsewhere, C170_good; C170_fails: in a loop the search may not come to the transition, and the call returns (C170_order: with the neighbours in another order it raises); C170_undone_fails: after the refused call enforce_consistency() raises."},
{"property": "C171", "status": "partial", "theorems": ["AtomTk.C171_built", "AtomTk.C171_lifetime", "AtomTk.C171_one_unit_partial", "AtomTk.C171_hyperfine", "AtomTk.C171_zeeman", "AtomTk.C171_stale", "AtomTk.C171_none", "AtomTk.C171_bare", "AtomTk.C171_fails", "AtomTk.C171_lines_fails"], "note": "C171_lifetime, C171_one_unit_partial, C171_built, C171_hyperfine, C171_zeeman, C171_stale, C171_none, C171_bare; C171_fails: 1 Hz and 1 kHz give equal ratios; C171_lines_fails: computed lines keep the old rate."},
{"property": "C172", "status": "partial", "theorems": ["AtomTk.C172_poisoned", "AtomTk.C172_raises", "AtomTk.C172_named", "AtomTk.C172_stays", "AtomTk.C172_set", "AtomTk.C172_elsewhere", "AtomTk.C172_outside", "AtomTk.C172_quiet", "AtomTk.C172_cured", "AtomTk.C172_again", "AtomTk.C172_fixed", "AtomTk.C172_mixed", "AtomTk.C172_moves", "AtomTk.C172_fails"], "note": "C172_quiet, C172_raises, C172_named, C172_poisoned, C172_stays, C172_set, C172_elsewhere, C172_again, C172_cured, C172_mixed, C172_moves; C172_fails: g F=0 to a F=1 with frequency 400."},
{"property": "C173", "status": "partial", "theorems": ["AtomTk.C173_made", "AtomTk.C173_freq", "AtomTk.C173_set", "AtomTk.C173_types_partial", "AtomTk.C173_dipole", "AtomTk.C173_lines", "AtomTk.C173_never", "AtomTk.C173_fails", "AtomTk.C173_freq_fails"], "note": "C173_made, C173_types_partial, C173_dipole, C173_freq, C173_set, C173_lines, C173_never; C173_fails and C173_freq_fails: the D2 line with I = 3/2, F = 1 to F' = 2."},
{"property": "C174", "status": "partial", "theorems": ["AtomTk.C174_agrees", "AtomTk.C174_moved", "AtomTk.C174_zeeman", "AtomTk.C174_rest", "AtomTk.C174_sits_partial", "AtomTk.C174_follows", "AtomTk.C174_set", "AtomTk.C174_listed", "AtomTk.C174_hides", "AtomTk.C174_deleted", "AtomTk.C174_same", "AtomTk.C174_assignZ", "AtomTk.C174_agrees_zeeman", "AtomTk.C174_gF", "AtomTk.C174_fails"], "note": "C174_moved, C174_zeeman, C174_rest, C174_sits_partial, C174_follows, C174_set, C174_listed, C174_hides, C174_deleted, C174_same, C174_assignZ, C174_gF; C174_agrees and C174_agrees_zeeman tie the extended state to the atom; C174_fails: g['F=1'] = a['F=1'] with A = 4 and 8."},
{"property": "C175", "status": "partial", "theorems": ["AtomTk.C175_constructor", "AtomTk.C175_made", "AtomTk.C175_raises_partial", "AtomTk.C175_poisoned", "AtomTk.C175_without", "AtomTk.C175_repaired", "AtomTk.C175_refused", "AtomTk.C175_object", "AtomTk.C175_fails", "AtomTk.C175_loop"], "note": "C175_constructor, C175_made, C175_raises_partial, C175_poisoned, C175_without, C175_repaired; C175_fails: g-a with freq=5 raises AttributeError and stays; C175_loop: closing a loop it raises or not, depending on the order of the neighbours. C175_object and C175_refused: the object put in, the constructor that raises."},
{"property": "C176", "status": "partial", "theorems": ["AtomTk.C176_deleted", "AtomTk.C176_level_partial", "AtomTk.C176_transitions", "AtomTk.C176_level_last", "AtomTk.C176_alone_partial", "AtomTk.C176_accepted", "AtomTk.C176_fails", "AtomTk.C176_alias"], "note": "C176_deleted, C176_level_partial, C176_alone_partial, C176_transitions, C176_level_last, C176_accepted; C176_fails: g-a is gone after deleting a and adding it again; C176_alias: the alias taken back."},
{"property": "C177", "status": "proved", "theorems": ["AtomTk.C177_rate", "AtomTk.C177_hyperfine", "AtomTk.C177_zeeman"], "note": "C177_rate; C177_hyperfine and C177_zeeman with the factors. Names, not aliases (C42)."},
{"property": "C178", "status": "partial", "theorems": ["AtomTk.C178_same_partial", "AtomTk.C178_populated_partial", "AtomTk.C178_zeeman", "AtomTk.C178_fails", "AtomTk.C178_alias"], "note": "C178_same_partial, C178_populated_partial, C178_zeeman; C178_fails: a quadratic shift of 3 Hz is lost; C178_alias: an alias given to another level meanwhile comes back."},
{"property": "C179", "status": "partial", "theorems": ["AtomTk.C179_hyperfine", "AtomTk.C179_zeeman", "AtomTk.C179_lines_partial", "AtomTk.C179_zeeman_lines_partial", "AtomTk.C179_fails"], "note": "C179_hyperfine and C179_zeeman hold as stated; C179_lines_partial and C179_zeeman_lines_partial need the order kept; C179_fails: a line 7 Hz short of its transition of 400 Hz is 3 Hz beyond it when the transition is set to 2 Hz."},
{"property": "C180", "status": "partial", "theorems": ["AtomTk.C180_world_partial", "AtomTk.C180_same_partial", "AtomTk.C180_result", "AtomTk.C180_fails"], "note": "C180_world_partial, C180_same_partial, C180_result; C180_fails: the alias 'g 2S1/2 F=1' of another level hides the sublevel, which is then not computed."},
{"property": "C181", "status": "partial", "theorems": ["AtomTk.C181_constants_partial", "AtomTk.C181_sublevels_partial", "AtomTk.C181_fails"], "note": "C181_constants_partial, C181_sublevels_partial; C181_fails: putting a sublevel at 50 Hz leaves the level at another energy when A is another."},
{"property": "C182", "status": "partial", "theorems": ["AtomTk.C182_factors_partial", "AtomTk.C182_zeeman_partial", "AtomTk.C182_no_field_partial", "AtomTk.C182_fails"], "note": "C182_factors_partial, C182_zeeman_partial, C182_no_field_partial; C182_fails: putting a Zeeman level at 50 Hz leaves the level at another energy when the Lande factor is another."},
{"property": "C183", "status": "partial", "theorems": ["AtomTk.C183_worlds", "AtomTk.C183_same", "AtomTk.C183_results", "AtomTk.C183_hyperfine_partial", "AtomTk.C183_fails"], "note": "C183_worlds, C183_same, C183_results, C183_hyperfine_partial; C183_fails: after an assignment of the Lande factor the factor of a hyperfine level made at once is the old one."},
{"property": "C184", "status": "proved", "theorems": ["AtomTk.C184_single", "AtomTk.C184_energy", "AtomTk.C184_zeeman", "AtomTk.C184_line"], "note": "C184_single, C184_energy, C184_zeeman, C184_line."},
{"property": "C185", "status": "proved", "theorems": ["AtomTk.C185_mutual_hyperfine", "AtomTk.C185_mutual_zeeman"], "note": "C185_mutual_hyperfine, C185_mutual_zeeman. For levels all of whose linked levels can be looked up by name, as in C100 and C107."},
{"property": "C186", "status": "partial", "theorems": ["AtomTk.C186_order_partial", "AtomTk.C186_fails", "AtomTk.C186_line_partial", "AtomTk.C186_zeeman_fails"], "note": "Proved for transitions made between levels of different energies, or from a level to itself (C186_order_partial). False for two levels of the same energy, of which the one given first becomes the upper one (C186_fails). Hyperfine lines: C186_line_partial, for lines of different energies of their ends; false for E2 Zeeman lines between different F, the strength of which is computed with the F of the first end twice (C186_zeeman_fails)."},
{"property": "C187", "status": "proved", "theorems": ["AtomTk.C187_isotopes", "AtomTk.C187_results"], "note": "C187_isotopes, C187_results. Calls that name sublevels are outside the claim: a shift of a hyperfine level depends on I."}
]}
