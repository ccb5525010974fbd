{
 "claims": [
  {
   "property": "C01",
   "status": "proved",
   "theorems": [
    "Verif.C01_valid",
    "Verif.C01_holds",
    "Verif.C01_every_text"
   ],
   "note": ""
  },
  {
   "property": "C02",
   "status": "proved",
   "theorems": [
    "Verif.C02_safe",
    "Verif.C02_no_panic"
   ],
   "note": ""
  },
  {
   "property": "C03",
   "status": "proved",
   "theorems": [
    "Verif.C03_refinement",
    "Verif.C03_from_new",
    "Verif.C03_choice",
    "Verif.C03_gather_fit",
    "Verif.C03_gather_all"
   ],
   "note": ""
  },
  {
   "property": "C04",
   "status": "proved",
   "theorems": [
    "Verif.C04_failed_call",
    "Verif.C04_write_refuted"
   ],
   "note": "write! (write_fmt) is excluded: it may write some pieces before it fails (C04_write_refuted)."
  },
  {
   "property": "C05",
   "status": "proved",
   "theorems": [
    "Verif.C05_try_push_str"
   ],
   "note": ""
  },
  {
   "property": "C06",
   "status": "proved",
   "theorems": [
    "Verif.C06_push_str_truncate",
    "Verif.C06_prefix_unique"
   ],
   "note": ""
  },
  {
   "property": "C07",
   "status": "proved",
   "theorems": [
    "Verif.C07_try_push"
   ],
   "note": ""
  },
  {
   "property": "C08",
   "status": "proved",
   "theorems": [
    "Verif.C08_try_from_str"
   ],
   "note": ""
  },
  {
   "property": "C09",
   "status": "proved",
   "theorems": [
    "Verif.C09_from_str_truncate"
   ],
   "note": ""
  },
  {
   "property": "C10",
   "status": "proved",
   "theorems": [
    "Verif.C10_try_from_iterator",
    "Verif.C10_try_from_iterator_any"
   ],
   "note": ""
  },
  {
   "property": "C11",
   "status": "proved",
   "theorems": [
    "Verif.C11_from_iterator_truncate"
   ],
   "note": ""
  },
  {
   "property": "C12",
   "status": "proved",
   "theorems": [
    "Verif.C12_try_from_chars",
    "Verif.C12_from_chars_truncate"
   ],
   "note": ""
  },
  {
   "property": "C13",
   "status": "proved",
   "theorems": [
    "Verif.C13_try_from_utf16_valid",
    "Verif.C13_try_from_utf16_invalid"
   ],
   "note": ""
  },
  {
   "property": "C14",
   "status": "proved",
   "theorems": [
    "Verif.C14_from_utf16_truncate",
    "Verif.C14_valid",
    "Verif.C14_refuted"
   ],
   "note": "C14_refuted: the doc comment's claim is false; C14_from_utf16_truncate is the exact behaviour."
  },
  {
   "property": "C15",
   "status": "proved",
   "theorems": [
    "Verif.C15_from_utf16_lossy_truncate",
    "Verif.C15_segments"
   ],
   "note": ""
  },
  {
   "property": "C16",
   "status": "proved",
   "theorems": [
    "Verif.C16_truncate",
    "Verif.C16_cases"
   ],
   "note": ""
  },
  {
   "property": "C17",
   "status": "proved",
   "theorems": [
    "Verif.C17_pop"
   ],
   "note": ""
  },
  {
   "property": "C18",
   "status": "proved",
   "theorems": [
    "Verif.C18_trim",
    "Verif.C18_trimmed_exists_unique",
    "Verif.C18_trim_idempotent"
   ],
   "note": ""
  },
  {
   "property": "C19",
   "status": "proved",
   "theorems": [
    "Verif.C19_remove",
    "Verif.C19_cases"
   ],
   "note": ""
  },
  {
   "property": "C20",
   "status": "proved",
   "theorems": [
    "Verif.C20_retain",
    "Verif.C20_retain_calls"
   ],
   "note": ""
  },
  {
   "property": "C21",
   "status": "proved",
   "theorems": [
    "Verif.C21_try_insert_str",
    "Verif.C21_try_insert"
   ],
   "note": ""
  },
  {
   "property": "C22",
   "status": "proved",
   "theorems": [
    "Verif.C22_insert_str_truncate"
   ],
   "note": ""
  },
  {
   "property": "C23",
   "status": "proved",
   "theorems": [
    "Verif.C23_split_off"
   ],
   "note": ""
  },
  {
   "property": "C24",
   "status": "proved",
   "theorems": [
    "Verif.C24_drain",
    "Verif.C24_cases"
   ],
   "note": ""
  },
  {
   "property": "C25",
   "status": "proved",
   "theorems": [
    "Verif.C25_collect",
    "Verif.C25_drain_deque",
    "Verif.C25_each_once",
    "Verif.C25_fused",
    "Verif.C25_default",
    "Verif.C25_drained"
   ],
   "note": ""
  },
  {
   "property": "C26",
   "status": "proved",
   "theorems": [
    "Verif.C26_replace_range",
    "Verif.C26_cases"
   ],
   "note": ""
  },
  {
   "property": "C27",
   "status": "proved",
   "theorems": [
    "Verif.C27_bounds",
    "Verif.C27_max",
    "Verif.C27_max_empty"
   ],
   "note": ""
  },
  {
   "property": "C28",
   "status": "proved",
   "theorems": [
    "Verif.C28_eq",
    "Verif.C28_equivalence"
   ],
   "note": ""
  },
  {
   "property": "C29",
   "status": "proved",
   "theorems": [
    "Verif.C29_hash",
    "Verif.C29_eq_hash",
    "Verif.C29_injective"
   ],
   "note": ""
  },
  {
   "property": "C30",
   "status": "proved",
   "theorems": [
    "Verif.C30_cmp",
    "Verif.C30_total_order"
   ],
   "note": ""
  },
  {
   "property": "C31",
   "status": "proved",
   "theorems": [
    "Verif.C31_write_str",
    "Verif.C31_write_fmt"
   ],
   "note": ""
  },
  {
   "property": "C32",
   "status": "proved",
   "theorems": [
    "Verif.C32_display",
    "Verif.C32_display_into",
    "Verif.C32_refuted"
   ],
   "note": "C32_refuted: width, fill and precision are ignored, unlike str."
  },
  {
   "property": "C33",
   "status": "proved",
   "theorems": [
    "Verif.C33_extend_refs",
    "Verif.C33_extend"
   ],
   "note": ""
  },
  {
   "property": "C34",
   "status": "proved",
   "theorems": [
    "Verif.C34_add"
   ],
   "note": ""
  },
  {
   "property": "C35",
   "status": "proved",
   "theorems": [
    "Verif.C35_index",
    "Verif.C35_cases",
    "Verif.C35_exhausted"
   ],
   "note": "C35_exhausted: an exhausted RangeInclusive<u8> is treated as if it were fresh."
  },
  {
   "property": "C36",
   "status": "proved",
   "theorems": [
    "Verif.C36_index_mut",
    "Verif.C36_as_mut_str",
    "Verif.C36_same",
    "Verif.C36_make_ascii_uppercase"
   ],
   "note": ""
  },
  {
   "property": "C37",
   "status": "proved",
   "theorems": [
    "Verif.C37_call",
    "Verif.C37_history",
    "Verif.C37_refinement",
    "Verif.C37_traits",
    "Verif.C37_wrap",
    "Verif.C37_write_texts",
    "Verif.C37_iterators"
   ],
   "note": ""
  },
  {
   "property": "C38",
   "status": "proved",
   "theorems": [
    "Verif.C38_serialize",
    "Verif.C38_deserialize",
    "Verif.C38_round_trip",
    "Verif.C38_refuted",
    "Verif.C38_string_accepts",
    "Verif.C38_cache",
    "Verif.C38_json"
   ],
   "note": "C38_refuted: input the format cannot lend (e.g. JSON with escapes, any reader) is rejected, unlike String; C38_json is the exact behaviour for JSON strings."
  },
  {
   "property": "C39",
   "status": "proved",
   "theorems": [
    "Verif.C39_to_sql",
    "Verif.C39_from_sql",
    "Verif.C39_round_trip",
    "Verif.C39_cache"
   ],
   "note": ""
  },
  {
   "property": "C40",
   "status": "proved",
   "theorems": [
    "Verif.C40_array_string",
    "Verif.C40_array_string_least",
    "Verif.C40_cache",
    "Verif.C40_cache_full",
    "Verif.C40_cache_lines",
    "Verif.C40_string",
    "Verif.C40_small_string",
    "Verif.C40_refuted",
    "Verif.C40_aliases",
    "Verif.C40_max_string"
   ],
   "note": "C40_refuted: SmallString is one byte larger than String, contrary to its doc comment. Equalities are for the layout with least padding (what rustc does); the lower bounds hold of every layout the reference allows."
  },
  {
   "property": "C41",
   "status": "proved",
   "theorems": [
    "Verif.C41_conversions",
    "Verif.C41_eq",
    "Verif.C41_hash",
    "Verif.C41_display"
   ],
   "note": ""
  },
  {
   "property": "C42",
   "status": "proved",
   "theorems": [
    "Verif.C42_chars",
    "Verif.C42_try_chars",
    "Verif.C42_strs",
    "Verif.C42_strs_nonempty",
    "Verif.C42_strs_loops",
    "Verif.C42_extend_chars",
    "Verif.C42_extend_pulls",
    "Verif.C42_extend_strs",
    "Verif.C42_extend_strs_nonempty",
    "Verif.C42_extend_endless",
    "Verif.C42_extend_refs"
   ],
   "note": "C42_strs_loops: an endless supply of empty pieces loops for ever. C42_extend_pulls: extend pulls a capacity's worth from an endless supply whatever the free space."
  },
  {
   "property": "C43",
   "status": "proved",
   "theorems": [
    "Verif.C43_retain",
    "Verif.C43_extend_chars",
    "Verif.C43_extend_strs"
   ],
   "note": ""
  },
  {
   "property": "C44",
   "status": "proved",
   "theorems": [
    "Verif.C44_len",
    "Verif.C44_new"
   ],
   "note": ""
  },
  {
   "property": "C45",
   "status": "proved",
   "theorems": [
    "Verif.C45_insert_inside_char",
    "Verif.C45_replace_empty",
    "Verif.C45_refuted"
   ],
   "note": "C45_refuted plus exact characterisations."
  },
  {
   "property": "C46",
   "status": "proved",
   "theorems": [
    "Verif.C46_push_pop",
    "Verif.C46_push_pop'",
    "Verif.C46_insert_remove",
    "Verif.C46_split_append",
    "Verif.C46_drain_insert"
   ],
   "note": ""
  },
  {
   "property": "C47",
   "status": "proved",
   "theorems": [
    "Verif.C47_agrees",
    "Verif.C47_history",
    "Verif.C47_panics",
    "Verif.C47_exceptions",
    "Verif.C47_utf16",
    "Verif.C47_overflows",
    "Verif.C47_caller_panics"
   ],
   "note": "C47_exceptions and C47_utf16 are the complete list of calls on which the two types differ although the result fits."
  },
  {
   "property": "C48",
   "status": "proved",
   "theorems": [
    "Verif.C48_adversarial_as_ref",
    "Verif.C48_finite"
   ],
   "note": ""
  },
  {
   "property": "C49",
   "status": "proved",
   "theorems": [
    "Verif.C49_truncate_str"
   ],
   "note": ""
  },
  {
   "property": "C50",
   "status": "proved",
   "theorems": [
    "Verif.C50_statement",
    "Verif.C50_refinement",
    "Verif.C50_frame",
    "Verif.C50_independent",
    "Verif.C50_clone"
   ],
   "note": ""
  },
  {
   "property": "C51",
   "status": "proved",
   "theorems": [
    "Verif.C51_debug_wrapped",
    "Verif.C51_debug_shape",
    "Verif.C51_debug_wrapped_shape",
    "Verif.C51_debug_text"
   ],
   "note": ""
  },
  {
   "property": "C52",
   "status": "proved",
   "theorems": [
    "Verif.C52_validation",
    "Verif.C52_chars",
    "Verif.C52_char_indices",
    "Verif.C52_char_boundary",
    "Verif.C52_encode",
    "Verif.C52_whitespace",
    "Verif.C52_decode_utf16",
    "Verif.C52_memmove"
   ],
   "note": "Model/CoreStr is a transcription of library/core, which is not part of the repository."
  },
  {
   "property": "C53",
   "status": "proved",
   "theorems": [
    "Verif.C53_world",
    "Verif.C53_disabled",
    "Verif.C53_transparent",
    "Verif.C53_refinement",
    "Verif.C53_cut_short",
    "Verif.C53_sturdy",
    "Verif.C53_overwritten",
    "Verif.C53_broken_only",
    "Verif.C53_refuted",
    "Verif.C53_undefined",
    "Verif.C53_as_ref_refuted",
    "Verif.C53_reentrant"
   ],
   "note": "The unconditional claim is false (C53_refuted, C53_undefined): a logger that panics can leave invalid UTF-8. C53_cut_short and C53_broken_only say exactly when."
  },
  {
   "property": "C54",
   "status": "proved",
   "theorems": [
    "Verif.C54_stacked",
    "Verif.C54_tree",
    "Verif.C54_replace_range_stacked",
    "Verif.C54_replace_range_tree",
    "Verif.C54_as_mut_stacked",
    "Verif.C54_as_mut_tree",
    "Verif.C54_as_mut_only_stacked",
    "Verif.C54_program"
   ],
   "note": ""
  },
  {
   "property": "C55",
   "status": "proved",
   "theorems": [
    "Verif.C55_once",
    "Verif.C55_items",
    "Verif.C55_any",
    "Verif.C55_constructors",
    "Verif.C55_safe",
    "Verif.C55_once_refuted"
   ],
   "note": ""
  },
  {
   "property": "C56",
   "status": "proved",
   "theorems": [
    "Verif.C56_client",
    "Verif.C56_try_fold",
    "Verif.C56_fold",
    "Verif.C56_collect",
    "Verif.C56_nth",
    "Verif.C56_advance_by",
    "Verif.C56_search",
    "Verif.C56_reduce",
    "Verif.C56_size_hint"
   ],
   "note": ""
  },
  {
   "property": "C57",
   "status": "proved",
   "theorems": [
    "Verif.C57_stacked",
    "Verif.C57_tree",
    "Verif.C57_call_stacked",
    "Verif.C57_call_tree",
    "Verif.C57_program"
   ],
   "note": ""
  },
  {
   "property": "C58",
   "status": "proved",
   "theorems": [
    "Verif.C58_recording",
    "Verif.C58_writes",
    "Verif.C58_reads",
    "Verif.C58_call_stacked",
    "Verif.C58_call_tree",
    "Verif.C58_text",
    "Verif.C58_all",
    "Verif.C58_text_stacked",
    "Verif.C58_text_tree"
   ],
   "note": ""
  },
  {
   "property": "C59",
   "status": "proved",
   "theorems": [
    "Verif.C59_stacked",
    "Verif.C59_tree",
    "Verif.C59_program",
    "Verif.C59_plan_stacked",
    "Verif.C59_plan_tree",
    "Verif.C59_plan"
   ],
   "note": "What programs are left out is listed in DESIGN.md section 6."
  },
  {
   "property": "C60",
   "status": "proved",
   "theorems": [
    "Verif.C60_reads",
    "Verif.C60_bytewise",
    "Verif.C60_alone",
    "Verif.C60_breaks",
    "Verif.C60_stacked",
    "Verif.C60_tree"
   ],
   "note": "Data races are excluded because no step writes; the order of steps is sequentially consistent."
  },
  {
   "property": "C61",
   "status": "proved",
   "theorems": [
    "Verif.C61_stacked",
    "Verif.C61_tree",
    "Verif.C61_call_stacked",
    "Verif.C61_call_tree",
    "Verif.C61_asMut",
    "Verif.C61_program"
   ],
   "note": ""
  },
  {
   "property": "C62",
   "status": "proved",
   "theorems": [
    "Verif.C62_calls",
    "Verif.C62_call",
    "Verif.C62_cache",
    "Verif.C62_as_mut",
    "Verif.C62_client",
    "Verif.C62_plan",
    "Verif.C62_threads"
   ],
   "note": ""
  },
  {
   "property": "C63",
   "status": "proved",
   "theorems": [
    "Verif.C63_str",
    "Verif.C63_u8",
    "Verif.C63_debug",
    "Verif.C63_wrapped",
    "Verif.C63_determines",
    "Verif.C63_visible",
    "Verif.C63_plain",
    "Verif.C63_write"
   ],
   "note": ""
  },
  {
   "property": "C64",
   "status": "proved",
   "theorems": [
    "Verif.C64_statement",
    "Verif.C64_refinement",
    "Verif.C64_frame",
    "Verif.C64_untouched",
    "Verif.C64_depends",
    "Verif.C64_round_trip"
   ],
   "note": ""
  },
  {
   "property": "C65",
   "status": "proved",
   "theorems": [
    "Verif.C65_exact",
    "Verif.C65_suite",
    "Verif.C65_suite_255",
    "Verif.C65_strings",
    "Verif.C65_insert_str_refuted"
   ],
   "note": ""
  },
  {
   "property": "C66",
   "status": "proved",
   "theorems": [
    "Verif.C66_stacked",
    "Verif.C66_tree",
    "Verif.C66_outer",
    "Verif.C66_text",
    "Verif.C66_program"
   ],
   "note": ""
  },
  {
   "property": "C67",
   "status": "proved",
   "theorems": [
    "Verif.C67_stacked",
    "Verif.C67_tree",
    "Verif.C67_outer",
    "Verif.C67_text",
    "Verif.C67_program"
   ],
   "note": ""
  },
  {
   "property": "C68",
   "status": "proved",
   "theorems": [
    "Verif.C68_stacked",
    "Verif.C68_tree",
    "Verif.C68_outer",
    "Verif.C68_looks",
    "Verif.C68_at_zero"
   ],
   "note": ""
  },
  {
   "property": "C69",
   "status": "proved",
   "theorems": [
    "Verif.C69_stacked",
    "Verif.C69_tree",
    "Verif.C69_outer",
    "Verif.C69_looks"
   ],
   "note": ""
  },
  {
   "property": "C70",
   "status": "proved",
   "theorems": [
    "Verif.C70_stacked",
    "Verif.C70_tree",
    "Verif.C70_outer",
    "Verif.C70_cache_stacked",
    "Verif.C70_cache_tree",
    "Verif.C70_cache_outer",
    "Verif.C70_same_call"
   ],
   "note": ""
  },
  {
   "property": "C71",
   "status": "proved",
   "theorems": [
    "Verif.C71_cache_stacked",
    "Verif.C71_cache_tree",
    "Verif.C71_cache_outer",
    "Verif.C71_program",
    "Verif.C71_stacked",
    "Verif.C71_tree",
    "Verif.C71_outer",
    "Verif.C71_pop_asked",
    "Verif.C71_next_asked",
    "Verif.C71_empty_asked",
    "Verif.C71_remove_asked",
    "Verif.C71_trim_asked",
    "Verif.C71_trim_blank_asked",
    "Verif.C71_leaves",
    "Verif.C71_blind",
    "Verif.C71_only"
   ],
   "note": ""
  }
 ]
}
