{
 "claims": [
  {
   "property": "C01",
   "status": "proved",
   "theorems": [
    "Ringing.C01_mul",
    "Ringing.C01_mul_unique",
    "Ringing.C01_assoc",
    "Ringing.C01_identity"
   ],
   "note": ""
  },
  {
   "property": "C02",
   "status": "proved",
   "theorems": [
    "Ringing.C02_inverse",
    "Ringing.C02_inverse_mul",
    "Ringing.C02_div",
    "Ringing.C02_div_self"
   ],
   "note": ""
  },
  {
   "property": "C03",
   "status": "proved",
   "theorems": [
    "Ringing.C03_string",
    "Ringing.C03_vector",
    "Ringing.C03_vector_sound",
    "Ringing.C03_rounds",
    "Ringing.C03_rounds_false",
    "Ringing.C03_resize_up",
    "Ringing.C03_resize_down"
   ],
   "note": ""
  },
  {
   "property": "C04",
   "status": "proved",
   "theorems": [
    "Ringing.C04_power",
    "Ringing.C04_power_neg",
    "Ringing.C04_power_add",
    "Ringing.C04_power_diverges",
    "Ringing.C04_power_18",
    "Ringing.C04_power_neg_18",
    "Ringing.C04_false"
   ],
   "note": ""
  },
  {
   "property": "C05",
   "status": "proved",
   "theorems": [
    "Ringing.C05_order",
    "Ringing.C05_least"
   ],
   "note": ""
  },
  {
   "property": "C06",
   "status": "proved",
   "theorems": [
    "Ringing.C06_change",
    "Ringing.C06_perm_exists",
    "Ringing.C06_sign",
    "Ringing.C06_sign_mul",
    "Ringing.C06_sign_rounds"
   ],
   "note": ""
  },
  {
   "property": "C07",
   "status": "proved",
   "theorems": [
    "Ringing.C07_cycle_size",
    "Ringing.C07_cycle_size_ub",
    "Ringing.C07_cycles",
    "Ringing.C07_cycles_string",
    "Ringing.C07_num_cycles"
   ],
   "note": ""
  },
  {
   "property": "C08",
   "status": "proved",
   "theorems": [
    "Ringing.C08_conjugate_eq",
    "Ringing.C08_are_conjugate",
    "Ringing.C08_conjugator",
    "Ringing.C08_conjugator_throws",
    "Ringing.C08_mixed_stages",
    "Ringing.C08_class_vector_exists"
   ],
   "note": ""
  },
  {
   "property": "C09",
   "status": "proved",
   "theorems": [
    "Ringing.C09_roundtrip",
    "Ringing.C09_symbols",
    "Ringing.C09_case",
    "Ringing.C09_IO",
    "Ringing.C09_reject",
    "Ringing.C09_is_symbol",
    "Ringing.C09_false",
    "Ringing.C09_range"
   ],
   "note": ""
  },
  {
   "property": "C10",
   "status": "proved",
   "theorems": [
    "Ringing.C10_write_parse",
    "Ringing.C10_print_parse",
    "Ringing.C10_write_injective",
    "Ringing.C10_print_injective"
   ],
   "note": ""
  },
  {
   "property": "C11",
   "status": "proved",
   "theorems": [
    "Ringing.C11_places",
    "Ringing.C11_places_determine",
    "Ringing.C11_string"
   ],
   "note": ""
  },
  {
   "property": "C12",
   "status": "proved",
   "theorems": [
    "Ringing.C12_places",
    "Ringing.C12_print"
   ],
   "note": ""
  },
  {
   "property": "C13",
   "status": "proved",
   "theorems": [
    "Ringing.C13_pos",
    "Ringing.C13_apply",
    "Ringing.C13_involution",
    "Ringing.C13_multiply"
   ],
   "note": ""
  },
  {
   "property": "C14",
   "status": "proved",
   "theorems": [
    "Ringing.C14_swappair",
    "Ringing.C14_ub"
   ],
   "note": ""
  },
  {
   "property": "C15",
   "status": "proved",
   "theorems": [
    "Ringing.C15_find",
    "Ringing.C15_places",
    "Ringing.C15_internal",
    "Ringing.C15_same"
   ],
   "note": ""
  },
  {
   "property": "C16",
   "status": "proved",
   "theorems": [
    "Ringing.C16_reverse",
    "Ringing.C16_involution",
    "Ringing.C16_conjugate"
   ],
   "note": ""
  },
  {
   "property": "C17",
   "status": "proved",
   "theorems": [
    "Ringing.C17_roundtrip",
    "Ringing.C17_empty_ub"
   ],
   "note": ""
  },
  {
   "property": "C18",
   "status": "proved",
   "theorems": [
    "Ringing.C18_meaning",
    "Ringing.C18_rejects",
    "Ringing.C18_string",
    "Ringing.C18_string_ub",
    "Ringing.C18_wellformed"
   ],
   "note": ""
  },
  {
   "property": "C19",
   "status": "proved",
   "theorems": [
    "Ringing.C19_lead_head",
    "Ringing.C19_leads"
   ],
   "note": ""
  },
  {
   "property": "C20",
   "status": "proved",
   "theorems": [
    "Ringing.C20_about",
    "Ringing.C20_issym",
    "Ringing.C20_symmetry_point",
    "Ringing.C20_involutions"
   ],
   "note": ""
  },
  {
   "property": "C21",
   "status": "proved",
   "theorems": [
    "Ringing.C21_isdouble",
    "Ringing.C21_huntbells",
    "Ringing.C21_hasplaces",
    "Ringing.C21_isplain",
    "Ringing.C21_maxblows"
   ],
   "note": ""
  },
  {
   "property": "C22",
   "status": "proved",
   "theorems": [
    "Ringing.C22_methclass",
    "Ringing.C22_class_unique",
    "Ringing.C22_principle",
    "Ringing.C22_strict_ub",
    "Ringing.C22_one_bell",
    "Ringing.C22_hasdodges",
    "Ringing.C22_hasdodges_empty",
    "Ringing.C22_bell_symmetry"
   ],
   "note": ""
  },
  {
   "property": "C23",
   "status": "proved",
   "theorems": [
    "Ringing.C23_nth_then_position",
    "Ringing.C23_position_then_nth",
    "Ringing.C23_position_monotone",
    "Ringing.C23_position_refuses",
    "Ringing.C23_position_too_many",
    "Ringing.C23_position_short",
    "Ringing.C23_position_short_ub",
    "Ringing.C23_nth_14_wrong",
    "Ringing.C23_size"
   ],
   "note": ""
  },
  {
   "property": "C24",
   "status": "proved",
   "theorems": [
    "Ringing.C24_visits_extent",
    "Ringing.C24_increasing",
    "Ringing.C24_complete",
    "Ringing.C24_end",
    "Ringing.C24_comparison",
    "Ringing.C24_decrement",
    "Ringing.C24_decrement_end_stuck",
    "Ringing.C24_decrement_first"
   ],
   "note": ""
  },
  {
   "property": "C25",
   "status": "proved",
   "theorems": [
    "Ringing.C25_sign_of_nth",
    "Ringing.C25_sign_of_position",
    "Ringing.C25_nth_then_position",
    "Ringing.C25_position_then_nth",
    "Ringing.C25_monotone",
    "Ringing.C25_iterator_visits",
    "Ringing.C25_iterator_increasing",
    "Ringing.C25_iterator_complete",
    "Ringing.C25_iterator_end"
   ],
   "note": ""
  },
  {
   "property": "C26",
   "status": "proved",
   "theorems": [
    "Ringing.C26_enumerates"
   ],
   "note": ""
  },
  {
   "property": "C27",
   "status": "proved",
   "theorems": [
    "Ringing.C27_history",
    "Ringing.C27_truth"
   ],
   "note": ""
  },
  {
   "property": "C28",
   "status": "proved",
   "theorems": [
    "Ringing.C28_branch_copy",
    "Ringing.C28_false_branch",
    "Ringing.C28_remove_old"
   ],
   "note": ""
  },
  {
   "property": "C29",
   "status": "proved",
   "theorems": [
    "Ringing.C29_failinfo",
    "Ringing.C29_stale",
    "Ringing.C29_wrong_line",
    "Ringing.C29_branch_lines"
   ],
   "note": ""
  },
  {
   "property": "C30",
   "status": "proved",
   "theorems": [
    "Ringing.C30_prove",
    "Ringing.C30_constructor"
   ],
   "note": ""
  },
  {
   "property": "C31",
   "status": "proved",
   "theorems": [
    "Ringing.Group.C31_one",
    "Ringing.Group.C31_two",
    "Ringing.Group.C31_vector",
    "Ringing.Group.C31_closed",
    "Ringing.Group.C31_compare"
   ],
   "note": ""
  },
  {
   "property": "C32",
   "status": "proved",
   "theorems": [
    "Ringing.Group.C32_conjugate",
    "Ringing.Group.C32_conjugate_longer",
    "Ringing.Group.C32_even",
    "Ringing.Group.C32_invariants",
    "Ringing.Group.C32_product"
   ],
   "note": ""
  },
  {
   "property": "C33",
   "status": "proved",
   "theorems": [
    "Ringing.Group.C33_rcoset_least",
    "Ringing.Group.C33_lcoset_least",
    "Ringing.Group.C33_rcoset_iff",
    "Ringing.Group.C33_lcoset_iff",
    "Ringing.Group.C33_member",
    "Ringing.Group.C33_rcoset_longer",
    "Ringing.Group.C33_rcoset_shorter"
   ],
   "note": ""
  },
  {
   "property": "C34",
   "status": "proved",
   "theorems": [
    "Ringing.C34_method_rows",
    "Ringing.C34_rows",
    "Ringing.C34_methods",
    "Ringing.C34_method",
    "Ringing.C34_false",
    "Ringing.C34_half_lead_ub",
    "Ringing.C34_group",
    "Ringing.C34_group_out"
   ],
   "note": ""
  },
  {
   "property": "C35",
   "status": "proved",
   "theorems": [
    "Ringing.C35_courses",
    "Ringing.C35_diverges"
   ],
   "note": ""
  },
  {
   "property": "C36",
   "status": "proved",
   "theorems": [
    "Ringing.C36_part_end",
    "Ringing.C36_swap",
    "Ringing.Multtab.C36_products",
    "Ringing.Multtab.C36_find",
    "Ringing.Multtab.C36_size",
    "Ringing.Multtab.C36_isrounds",
    "Ringing.Multtab.C36_refused",
    "Ringing.Multtab.C36_square",
    "Ringing.Multtab.C36_post_group_false"
   ],
   "note": ""
  },
  {
   "property": "C37",
   "status": "proved",
   "theorems": [
    "Ringing.C37_nodes",
    "Ringing.TouchNode.C37_flatten",
    "Ringing.TouchNode.C37_touch",
    "Ringing.TouchNode.C37_empty_child",
    "Ringing.TouchNode.C37_no_repeats"
   ],
   "note": ""
  },
  {
   "property": "C38",
   "status": "proved",
   "theorems": [
    "Ringing.Search.C38_sound",
    "Ringing.Search.C38_one_change",
    "Ringing.Search.C38_needs_treble"
   ],
   "note": ""
  },
  {
   "property": "C39",
   "status": "proved",
   "theorems": [
    "Ringing.Search.C39_complete"
   ],
   "note": ""
  },
  {
   "property": "C40",
   "status": "proved",
   "theorems": [
    "Ringing.Search.C40_once",
    "Ringing.Search.C40_short",
    "Ringing.Search.C40_twice"
   ],
   "note": ""
  },
  {
   "property": "C41",
   "status": "proved",
   "theorems": [
    "Ringing.TableSearch.C41_true_touch",
    "Ringing.TableSearch.C41_trueParts",
    "Ringing.TableSearch.C41_parts_complete",
    "Ringing.TableSearch.C41_parts_sound",
    "Ringing.TableSearch.C41_halting",
    "Ringing.TableSearch.C41_length_range",
    "Ringing.TableSearch.C41_no_range",
    "Ringing.TableSearch.C41_blocks_sound",
    "Ringing.TableSearch.C41_parts_false",
    "Ringing.TableSearch.C41_odd_part_end",
    "Ringing.TableSearch.C41_block_rotations",
    "Ringing.TableSearch.C41_old",
    "Ringing.TableSearch.C41_old_range",
    "Ringing.TableSearch.C41_single_sound",
    "Ringing.TableSearch.C41_single_complete",
    "Ringing.TableSearch.C41_parts"
   ],
   "note": ""
  },
  {
   "property": "C42",
   "status": "proved",
   "theorems": [
    "Ringing.C42_get_count",
    "Ringing.C42_possible",
    "Ringing.C42_append",
    "Ringing.C42_clear_all",
    "Ringing.C42_set_bells",
    "Ringing.C42_set_bells_stale",
    "Ringing.C42_valid",
    "Ringing.C42_push",
    "Ringing.C42_process",
    "Ringing.C42_sound",
    "Ringing.C42_readings",
    "Ringing.C42_row",
    "Ringing.C42_rows",
    "Ringing.C42_independent",
    "Ringing.C42_score",
    "Ringing.C42_strict",
    "Ringing.C42_defined",
    "Ringing.C42_empty_star",
    "Ringing.C42_missed",
    "Ringing.C42_counted_twice",
    "Ringing.C42_too_long",
    "Ringing.C42_reads_behind",
    "Ringing.C42_clear",
    "Ringing.C42_runs",
    "Ringing.C42_runs_found",
    "Ringing.C42_cru"
   ],
   "note": ""
  },
  {
   "property": "C43",
   "status": "proved",
   "theorems": [
    "Ringing.C43_valid",
    "Ringing.C43_count",
    "Ringing.C43_exact",
    "Ringing.C43_unset",
    "Ringing.C43_documented",
    "Ringing.C43_named_twice",
    "Ringing.C43_unanchored",
    "Ringing.C43_throws",
    "Ringing.C43_too_long",
    "Ringing.C43_both_cases"
   ],
   "note": ""
  },
  {
   "property": "C44",
   "status": "proved",
   "theorems": [
    "Ringing.C44_hcf",
    "Ringing.C44_hcf_zero",
    "Ringing.C44_lcm",
    "Ringing.C44_factorial",
    "Ringing.C44_fibonacci",
    "Ringing.C44_ipower",
    "Ringing.C44_ipower_neg",
    "Ringing.C44_is_prime",
    "Ringing.C44_next_prime",
    "Ringing.C44_next_prime_exists"
   ],
   "note": ""
  },
  {
   "property": "C45",
   "status": "proved",
   "theorems": [
    "Ringing.C45_isrounds",
    "Ringing.C45_queens",
    "Ringing.C45_kings",
    "Ringing.C45_tittums",
    "Ringing.C45_reverse_rounds",
    "Ringing.C45_reverse_rounds_part",
    "Ringing.C45_cyclic",
    "Ringing.C45_pblh"
   ],
   "note": ""
  },
  {
   "property": "C46",
   "status": "proved",
   "theorems": [
    "Ringing.C46_ispblh",
    "Ringing.C46_ispblh0"
   ],
   "note": ""
  },
  {
   "property": "C47",
   "status": "proved",
   "theorems": [
    "Ringing.C47_set_start",
    "Ringing.C47_set_start_only",
    "Ringing.C47_from_row",
    "Ringing.C47_from_rounds",
    "Ringing.C47_ub",
    "Ringing.C47_recalculate",
    "Ringing.C47_apply"
   ],
   "note": ""
  },
  {
   "property": "C48",
   "status": "proved",
   "theorems": [
    "Ringing.C48_row_order",
    "Ringing.C48_row_coherent",
    "Ringing.C48_change_order"
   ],
   "note": ""
  },
  {
   "property": "C49",
   "status": "proved",
   "theorems": [
    "Ringing.C49_change",
    "Ringing.C49_core"
   ],
   "note": ""
  },
  {
   "property": "C50",
   "status": "proved",
   "theorems": [
    "Ringing.C50_landau",
    "Ringing.C50_overflow",
    "Ringing.C50_fits",
    "Ringing.C50_any_bound",
    "Ringing.C50_generous_bound"
   ],
   "note": ""
  },
  {
   "property": "C51",
   "status": "proved",
   "theorems": [
    "Ringing.Group.C51_symmetric",
    "Ringing.Group.C51_alternating",
    "Ringing.Group.C51_default_total",
    "Ringing.Group.C51_trivial",
    "Ringing.Group.C51_cyclic_c",
    "Ringing.Group.C51_cyclic_r",
    "Ringing.Group.C51_dihedral_c",
    "Ringing.Group.C51_dihedral_r_odd",
    "Ringing.Group.C51_dihedral_r_even"
   ],
   "note": ""
  },
  {
   "property": "C52",
   "status": "proved",
   "theorems": [
    "Ringing.C52_injective",
    "Ringing.C52_injective_12"
   ],
   "note": ""
  },
  {
   "property": "C53",
   "status": "proved",
   "theorems": [
    "Ringing.Search.C53_halting"
   ],
   "note": ""
  },
  {
   "property": "C54",
   "status": "proved",
   "theorems": [
    "Ringing.C54_classname",
    "Ringing.C54_class_injective",
    "Ringing.C54_stage",
    "Ringing.C54_stage_injective",
    "Ringing.C54_fullname",
    "Ringing.C54_fullname_stage"
   ],
   "note": ""
  },
  {
   "property": "C55",
   "status": "proved",
   "theorems": [
    "Ringing.C55_code",
    "Ringing.C55_irregular",
    "Ringing.C55_empty",
    "Ringing.C55_injective"
   ],
   "note": ""
  },
  {
   "property": "C56",
   "status": "proved",
   "theorems": [
    "Ringing.Ptr.C56_shared",
    "Ringing.Ptr.C56_shared_no_leak",
    "Ringing.Ptr.C56_shared_oom_false",
    "Ringing.Ptr.C56_cow",
    "Ringing.Ptr.C56_cloning"
   ],
   "note": ""
  },
  {
   "property": "C57",
   "status": "proved",
   "theorems": [
    "Ringing.Siril.C57_verdict",
    "Ringing.Siril.C57_exception",
    "Ringing.Siril.C57_rows",
    "Ringing.Siril.C57_queries",
    "Ringing.Siril.C57_budget"
   ],
   "note": ""
  },
  {
   "property": "C58",
   "status": "proved",
   "theorems": [
    "Ringing.Siril.C58_condition",
    "Ringing.Siril.C58_string"
   ],
   "note": ""
  },
  {
   "property": "C59",
   "status": "proved",
   "theorems": [
    "Ringing.Siril.C59_report",
    "Ringing.Siril.C59_prove",
    "Ringing.Siril.C59_notation"
   ],
   "note": ""
  },
  {
   "property": "C60",
   "status": "proved",
   "theorems": [
    "Ringing.Lib.C60_unique",
    "Ringing.Lib.C60_entries",
    "Ringing.Lib.C60_bad",
    "Ringing.Lib.C60_cases",
    "Ringing.Lib.C60_lines",
    "Ringing.Lib.C60_again",
    "Ringing.Lib.C60_bom",
    "Ringing.Lib.C60_stream",
    "Ringing.Lib.C60_file",
    "Ringing.Lib.C60_file_bom"
   ],
   "note": ""
  },
  {
   "property": "C61",
   "status": "proved",
   "theorems": [
    "Ringing.Lib.C61_bells",
    "Ringing.Lib.C61_no_bells"
   ],
   "note": ""
  },
  {
   "property": "C62",
   "status": "proved",
   "theorems": [
    "Ringing.Lib.C62_name",
    "Ringing.Lib.C62_treble",
    "Ringing.Lib.C62_others"
   ],
   "note": ""
  },
  {
   "property": "C63",
   "status": "proved",
   "theorems": [
    "Ringing.Lib.C63_list",
    "Ringing.Lib.C63_load",
    "Ringing.Lib.C63_load_missing",
    "Ringing.Lib.C63_find",
    "Ringing.Lib.C63_find_missing",
    "Ringing.Lib.C63_title",
    "Ringing.Lib.C63_title_missing"
   ],
   "note": ""
  },
  {
   "property": "C64",
   "status": "proved",
   "theorems": [
    "Ringing.Lib.C64_history",
    "Ringing.Lib.C64_find",
    "Ringing.Lib.C64_list",
    "Ringing.Lib.C64_append",
    "Ringing.Lib.C64_made",
    "Ringing.Lib.C64_copy"
   ],
   "note": ""
  },
  {
   "property": "C65",
   "status": "proved",
   "theorems": [
    "Ringing.Lib.C65_unique",
    "Ringing.Lib.C65_total",
    "Ringing.Lib.C65_entries",
    "Ringing.Lib.C65_roundtrip",
    "Ringing.Lib.C65_roundtrip_z",
    "Ringing.Lib.C65_roundtrip_plus"
   ],
   "note": ""
  },
  {
   "property": "C66",
   "status": "proved",
   "theorems": [
    "Ringing.Music.C66_named",
    "Ringing.Music.C66_unknown",
    "Ringing.Music.C66_unique",
    "Ringing.Music.C66_score",
    "Ringing.Music.C66_commas",
    "Ringing.Music.C66_score_cases",
    "Ringing.Music.C66_plus",
    "Ringing.Music.C66_wrap",
    "Ringing.Music.C66_big"
   ],
   "note": ""
  },
  {
   "property": "C67",
   "status": "proved",
   "theorems": [
    "Ringing.Falseness.C67_determines",
    "Ringing.Falseness.C67_cache",
    "Ringing.Falseness.C67_optimise",
    "Ringing.Falseness.C67_lookup",
    "Ringing.Falseness.C67_together",
    "Ringing.Falseness.C67_same",
    "Ringing.Falseness.C67_symbols",
    "Ringing.Falseness.C67_errors",
    "Ringing.Falseness.C67_method",
    "Ringing.Falseness.C67_split_finding"
   ],
   "note": ""
  },
  {
   "property": "C68",
   "status": "proved",
   "theorems": [
    "Ringing.Siril.C68_reads",
    "Ringing.Siril.C68_only",
    "Ringing.Siril.C68_unique",
    "Ringing.Siril.C68_total",
    "Ringing.Siril.C68_rejects",
    "Ringing.Siril.C68_brackets",
    "Ringing.Siril.C68_right",
    "Ringing.Siril.C68_precedence",
    "Ringing.Siril.C68_group",
    "Ringing.Siril.C68_trailing_finding",
    "Ringing.Siril.C68_mixed_finding",
    "Ringing.Siril.C68_empty_finding",
    "Ringing.Siril.C68_first_semicolon_finding",
    "Ringing.Siril.C68_comma_finding",
    "Ringing.Siril.C68_wrap_finding"
   ],
   "note": ""
  },
  {
   "property": "C69",
   "status": "proved",
   "theorems": [
    "Ringing.Siril.C69_command",
    "Ringing.Siril.C69_command_error",
    "Ringing.Siril.C69_blanks",
    "Ringing.Siril.C69_statement",
    "Ringing.Siril.C69_end",
    "Ringing.Siril.C69_only",
    "Ringing.Siril.C69_unique",
    "Ringing.Siril.C69_total",
    "Ringing.Siril.C69_rejects",
    "Ringing.Siril.C69_described",
    "Ringing.Siril.C69_rows_range_finding",
    "Ringing.Siril.C69_end_literal_finding",
    "Ringing.Siril.C69_end_block_finding",
    "Ringing.Siril.C69_append_assign_finding",
    "Ringing.Siril.C69_resume_finding"
   ],
   "note": ""
  },
  {
   "property": "C70",
   "status": "proved",
   "theorems": [
    "Ringing.Siril.C70_reads",
    "Ringing.Siril.C70_rejects",
    "Ringing.Siril.C70_total",
    "Ringing.Siril.C70_unique",
    "Ringing.Siril.C70_lines",
    "Ringing.Siril.C70_words",
    "Ringing.Siril.C70_comment",
    "Ringing.Siril.C70_example",
    "Ringing.Siril.C70_sum_finding",
    "Ringing.Siril.C70_divisions_finding",
    "Ringing.Siril.C70_quote_finding",
    "Ringing.Siril.C70_nested_finding"
   ],
   "note": ""
  },
  {
   "property": "C71",
   "status": "proved",
   "theorems": [
    "Ringing.Siril.C71_define",
    "Ringing.Siril.C71_default",
    "Ringing.Siril.C71_immediate",
    "Ringing.Siril.C71_bells",
    "Ringing.Siril.C71_bells_mask_finding",
    "Ringing.Siril.C71_blocked",
    "Ringing.Siril.C71_rows",
    "Ringing.Siril.C71_sets",
    "Ringing.Siril.C71_row_mask",
    "Ringing.Siril.C71_block",
    "Ringing.Siril.C71_if_first",
    "Ringing.Siril.C71_if_none",
    "Ringing.Siril.C71_if_error",
    "Ringing.Siril.C71_foreach",
    "Ringing.Siril.C71_echo",
    "Ringing.Siril.C71_echo_text",
    "Ringing.Siril.C71_prove_again",
    "Ringing.Siril.C71_prove",
    "Ringing.Siril.C71_prove_error",
    "Ringing.Siril.C71_music",
    "Ringing.Siril.C71_music_one",
    "Ringing.Siril.C71_import"
   ],
   "note": ""
  },
  {
   "property": "C72",
   "status": "proved",
   "theorems": [
    "Ringing.Siril.C72_steps",
    "Ringing.Siril.C72_run",
    "Ringing.Siril.C72_fatal",
    "Ringing.Siril.C72_propagate",
    "Ringing.Siril.C72_warn",
    "Ringing.Siril.C72_only",
    "Ringing.Siril.C72_normal",
    "Ringing.Siril.C72_session",
    "Ringing.Siril.C72_bad_steps",
    "Ringing.Siril.C72_bad_fatal",
    "Ringing.Siril.C72_stuck_finding",
    "Ringing.Siril.C72_module",
    "Ringing.Siril.C72_module_error",
    "Ringing.Siril.C72_exit",
    "Ringing.Siril.C72_exit_first",
    "Ringing.Siril.C72_exit_error",
    "Ringing.Siril.C72_budget",
    "Ringing.Siril.C72_block_finding"
   ],
   "note": ""
  },
  {
   "property": "C73",
   "status": "proved",
   "theorems": [
    "Ringing.Siril.C73_expression",
    "Ringing.Siril.C73_bells",
    "Ringing.Siril.C73_expands",
    "Ringing.Siril.C73_stands_unique",
    "Ringing.Siril.C73_plain",
    "Ringing.Siril.C73_pn",
    "Ringing.Siril.C73_transp",
    "Ringing.Siril.C73_pattern",
    "Ringing.Siril.C73_end",
    "Ringing.Siril.C73_wrap_finding",
    "Ringing.Siril.C73_nested_finding",
    "Ringing.Siril.C73_case_finding"
   ],
   "note": ""
  },
  {
   "property": "C74",
   "status": "proved",
   "theorems": [
    "Ringing.Siril.C74_init",
    "Ringing.Siril.C74_crus_finding",
    "Ringing.Siril.C74_string",
    "Ringing.Siril.C74_string_bad",
    "Ringing.Siril.C74_definition",
    "Ringing.Siril.C74_definition_bad",
    "Ringing.Siril.C74_definition_more",
    "Ringing.Siril.C74_module",
    "Ringing.Siril.C74_arguments",
    "Ringing.Siril.C74_arguments_exit",
    "Ringing.Siril.C74_touch",
    "Ringing.Siril.C74_exit_true"
   ],
   "note": ""
  },
  {
   "property": "C75",
   "status": "proved",
   "theorems": [
    "Ringing.Siril.C75_filter",
    "Ringing.Siril.C75_bad_line",
    "Ringing.Siril.C75_unique",
    "Ringing.Siril.C75_reads_back",
    "Ringing.Siril.C75_library",
    "Ringing.Siril.C75_again",
    "Ringing.Siril.C75_prove_one_finding",
    "Ringing.Siril.C75_nothing_proved_finding"
   ],
   "note": ""
  },
  {
   "property": "C76",
   "status": "proved",
   "theorems": [
    "Ringing.C76_conventional",
    "Ringing.C76_mirror",
    "Ringing.C76_glide",
    "Ringing.C76_rotational",
    "Ringing.C76_rotational_odd",
    "Ringing.C76_rotational_wrong",
    "Ringing.C76_symmetry_string"
   ],
   "note": ""
  },
  {
   "property": "C77",
   "status": "proved",
   "theorems": [
    "Ringing.C77_cyclic",
    "Ringing.C77_division_false",
    "Ringing.C77_division_missed",
    "Ringing.C77_too_many_places",
    "Ringing.C77_consec_places",
    "Ringing.C77_bad_parity"
   ],
   "note": ""
  },
  {
   "property": "C78",
   "status": "proved",
   "theorems": [
    "Ringing.C78_compare",
    "Ringing.C78_compare_total",
    "Ringing.C78_compare_big",
    "Ringing.C78_coursing_order",
    "Ringing.C78_staticity",
    "Ringing.C78_points",
    "Ringing.C78_unpaired_points",
    "Ringing.C78_points_lead_length"
   ],
   "note": ""
  },
  {
   "property": "C79",
   "status": "proved",
   "theorems": [
    "Ringing.C79_old_lhcode",
    "Ringing.C79_old_lhcode_determines",
    "Ringing.C79_old_lhcode_empty",
    "Ringing.C79_split",
    "Ringing.C79_treble",
    "Ringing.C79_determine"
   ],
   "note": ""
  },
  {
   "property": "C80",
   "status": "proved",
   "theorems": [
    "Ringing.C80_search",
    "Ringing.C80_limit",
    "Ringing.C80_start_lost",
    "Ringing.C80_limited_twin"
   ],
   "note": ""
  },
  {
   "property": "C81",
   "status": "proved",
   "theorems": [
    "Ringing.C81_rotational_short",
    "Ringing.C81_palindromic",
    "Ringing.C81_glide",
    "Ringing.C81_rotational"
   ],
   "note": ""
  },
  {
   "property": "C82",
   "status": "proved",
   "theorems": [
    "Ringing.C82_blows",
    "Ringing.C82_filter",
    "Ringing.C82_quarter_lead",
    "Ringing.C82_half_lead",
    "Ringing.C82_floating_lost"
   ],
   "note": ""
  },
  {
   "property": "C83",
   "status": "proved",
   "theorems": [
    "Ringing.FalsenessAnalysis.C83_divides",
    "Ringing.FalsenessAnalysis.C83_extent",
    "Ringing.FalsenessAnalysis.C83_positive",
    "Ringing.FalsenessAnalysis.C83_assert",
    "Ringing.FalsenessAnalysis.C83_necessary",
    "Ringing.FalsenessAnalysis.C83_cps",
    "Ringing.FalsenessAnalysis.C83_cps_small",
    "Ringing.FalsenessAnalysis.C83_cps_empty",
    "Ringing.FalsenessAnalysis.C83_codes",
    "Ringing.FalsenessAnalysis.C83_codes8"
   ],
   "note": ""
  },
  {
   "property": "C84",
   "status": "proved",
   "theorems": [
    "Ringing.Mask.C84_position",
    "Ringing.Mask.C84_lead",
    "Ringing.Mask.C84_path",
    "Ringing.Mask.C84_treble"
   ],
   "note": ""
  },
  {
   "property": "C85",
   "status": "proved",
   "theorems": [
    "Ringing.Mask.C85_position",
    "Ringing.Mask.C85_mask_ignored",
    "Ringing.Mask.C85_mask_ignored_right_place"
   ],
   "note": ""
  },
  {
   "property": "C86",
   "status": "proved",
   "theorems": [
    "Ringing.Mask.C86_expand",
    "Ringing.Mask.C86_refused",
    "Ringing.Mask.C86_sound",
    "Ringing.Mask.C86_length",
    "Ringing.Mask.C86_plain",
    "Ringing.Mask.C86_empty_reflected"
   ],
   "note": ""
  },
  {
   "property": "C87",
   "status": "proved",
   "theorems": [
    "Ringing.Mask.C87_consistent",
    "Ringing.Mask.C87_skew",
    "Ringing.Mask.C87_restrict"
   ],
   "note": ""
  },
  {
   "property": "C88",
   "status": "proved",
   "theorems": [
    "Ringing.Dim.C88_read",
    "Ringing.Dim.C88_round_trip",
    "Ringing.Dim.C88_sign_lost",
    "Ringing.Dim.C88_units",
    "Ringing.Dim.C88_zero_not_read",
    "Ringing.Dim.C88_scale",
    "Ringing.Dim.C88_zero_by_zero"
   ],
   "note": ""
  },
  {
   "property": "C89",
   "status": "proved",
   "theorems": [
    "Ringing.MethMusic.C89_course",
    "Ringing.MethMusic.C89_lead",
    "Ringing.MethMusic.C89_second",
    "Ringing.MethMusic.C89_reverse",
    "Ringing.MethMusic.C89_course_leads",
    "Ringing.MethMusic.C89_empty",
    "Ringing.MethMusic.C89_score",
    "Ringing.MethMusic.C89_strokes",
    "Ringing.MethMusic.C89_odd"
   ],
   "note": ""
  },
  {
   "property": "C90",
   "status": "proved",
   "theorems": [
    "Ringing.C90_start",
    "Ringing.C90_limit",
    "Ringing.C90_start_not_allowed"
   ],
   "note": ""
  },
  {
   "property": "C91",
   "status": "proved",
   "theorems": [
    "Ringing.RowCalc.C91_rows",
    "Ringing.RowCalc.C91_valid",
    "Ringing.RowCalc.C91_group",
    "Ringing.RowCalc.C91_members",
    "Ringing.RowCalc.C91_power",
    "Ringing.RowCalc.C91_lost_nested",
    "Ringing.RowCalc.C91_lost_conjugates",
    "Ringing.RowCalc.C91_lost_after_difference"
   ],
   "note": ""
  },
  {
   "property": "C92",
   "status": "proved",
   "theorems": [
    "Ringing.RowCalc.C92_reads",
    "Ringing.RowCalc.C92_unambiguous",
    "Ringing.RowCalc.C92_evaluates",
    "Ringing.RowCalc.C92_no_negative_power",
    "Ringing.RowCalc.C92_negative_refused"
   ],
   "note": ""
  },
  {
   "property": "C93",
   "status": "proved",
   "theorems": [
    "Ringing.JoinPlan.C93_touches",
    "Ringing.JoinPlan.C93_distinct",
    "Ringing.JoinPlan.C93_length",
    "Ringing.JoinPlan.C93_nodes",
    "Ringing.JoinPlan.C93_too_long"
   ],
   "note": ""
  },
  {
   "property": "C94",
   "status": "proved",
   "theorems": [
    "Ringing.PrintTouch.C94_line",
    "Ringing.PrintTouch.C94_commas",
    "Ringing.PrintTouch.C94_first_comma"
   ],
   "note": ""
  },
  {
   "property": "C95",
   "status": "proved",
   "theorems": [
    "Ringing.ExtentApp.C95_rows",
    "Ringing.ExtentApp.C95_refused",
    "Ringing.ExtentApp.C95_too_many"
   ],
   "note": ""
  },
  {
   "property": "C96",
   "status": "proved",
   "theorems": [
    "Ringing.MusGrep.C96_rows",
    "Ringing.MusGrep.C96_strokes"
   ],
   "note": ""
  },
  {
   "property": "C97",
   "status": "proved",
   "theorems": [
    "Ringing.Trim.C97_trim",
    "Ringing.Trim.C97_covers",
    "Ringing.Trim.C97_blank",
    "Ringing.Trim.C97_trailing"
   ],
   "note": ""
  },
  {
   "property": "C98",
   "status": "proved",
   "theorems": [
    "Ringing.Splices.C98_disjoint",
    "Ringing.Splices.C98_components"
   ],
   "note": ""
  }
 ]
}