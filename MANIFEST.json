{
 "claims": [
  {
   "property": "C01",
   "status": "proved",
   "theorems": [
    "SegEval.Props.C01_masses_roundtrip",
    "SegEval.Props.C01_position_labels"
   ],
   "note": ""
  },
  {
   "property": "C02",
   "status": "proved",
   "theorems": [
    "SegEval.Props.C02_changes_preserved",
    "SegEval.Props.C02_masses_eq_iff",
    "SegEval.Props.C02_relabel"
   ],
   "note": ""
  },
  {
   "property": "C03",
   "status": "proved",
   "theorems": [
    "SegEval.Props.C03_boundary_string",
    "SegEval.Props.C03_boundary_string_nil"
   ],
   "note": ""
  },
  {
   "property": "C04",
   "status": "proved",
   "theorems": [
    "SegEval.Props.C04_nltk"
   ],
   "note": ""
  },
  {
   "property": "C05",
   "status": "partial",
   "theorems": [
    "SegEval.Props.C05_similarity_formats",
    "SegEval.Props.C05_pk_formats_partial",
    "SegEval.Props.C05_window_diff_formats_partial",
    "SegEval.Props.C05_pk_repeated_labels",
    "SegEval.Props.C05_large_labels"
   ],
   "note": "False as stated for pk and window_diff: reused position labels (C05_pk_repeated_labels) and labels outside the small-int cache (C05_large_labels) change the value. B, S and the statistics are proved in full; pk for labels not reused, window_diff for equal neighbouring labels being one object (and ends other than 0 with the fix)."
  },
  {
   "property": "C06",
   "status": "proved",
   "theorems": [
    "SegEval.Props.C06_edits_account",
    "SegEval.Props.C06_edits_account_a",
    "SegEval.Props.C06_edits_account_b",
    "SegEval.Props.C06_full_misses"
   ],
   "note": ""
  },
  {
   "property": "C07",
   "status": "proved",
   "theorems": [
    "SegEval.Props.C07_transpositions_genuine",
    "SegEval.Props.C07_transpositions_disjoint"
   ],
   "note": ""
  },
  {
   "property": "C08",
   "status": "proved",
   "theorems": [
    "SegEval.Props.C08_substitutions_cheapest"
   ],
   "note": ""
  },
  {
   "property": "C09",
   "status": "proved",
   "theorems": [
    "SegEval.Props.C09_total",
    "SegEval.Props.C09_only_failure",
    "SegEval.Props.C09_fails_above"
   ],
   "note": ""
  },
  {
   "property": "C10",
   "status": "proved",
   "theorems": [
    "SegEval.Props.C10_no_edits_iff"
   ],
   "note": ""
  },
  {
   "property": "C11",
   "status": "proved",
   "theorems": [
    "SegEval.Props.C11_symmetric",
    "SegEval.Props.C11_symmetric_total",
    "SegEval.Props.C11_mirrored"
   ],
   "note": ""
  },
  {
   "property": "C12",
   "status": "proved",
   "theorems": [
    "SegEval.Props.C12_order_independent"
   ],
   "note": ""
  },
  {
   "property": "C13",
   "status": "proved",
   "theorems": [
    "SegEval.Props.C13_transpositions_prefix",
    "SegEval.Props.C13_edits_mono",
    "SegEval.Props.C13_no_window"
   ],
   "note": ""
  },
  {
   "property": "C14",
   "status": "partial",
   "theorems": [
    "SegEval.Props.C14_twice",
    "SegEval.Props.C14_three_halves",
    "SegEval.Props.C14_twice_reached",
    "SegEval.Props.C14_minimal_partial",
    "SegEval.Props.C14_count_partial",
    "SegEval.Props.C14_not_minimal_two_types",
    "SegEval.Props.C14_not_minimal_window"
   ],
   "note": "False as stated: refuted for two types (C14_not_minimal_two_types) and for one type with n_t=3 (C14_not_minimal_window). Minimal for one boundary type and n_t=2; in general less than twice the minimum (reached up to 514 against 258, C14_twice_reached), and at most 3/2 of it for one type (reached)."
  },
  {
   "property": "C15",
   "status": "partial",
   "theorems": [
    "SegEval.Props.C15_disjoint_small_types_partial",
    "SegEval.Props.C15_overlap_only_separate_partial",
    "SegEval.Props.C15_overlap_any_large_type",
    "SegEval.Props.C15_overlap_large_types"
   ],
   "note": "False as stated: C15_overlap_any_large_type reports overlapping transpositions for every type outside -5..256. Proved for types from -5 to 256 under every assignment of identities; C15_overlap_only_separate_partial says exactly which comparison must fail for an overlap."
  },
  {
   "property": "C16",
   "status": "partial",
   "theorems": [
    "SegEval.Props.C16_similarity_lengths_partial",
    "SegEval.Props.C16_edit_distance_drops",
    "SegEval.Props.C16_edit_distance_raises",
    "SegEval.Props.C16_window_lengths_partial"
   ],
   "note": "The metric half is proved in full. The other half is false: boundary_edit_distance drops boundaries beyond the shorter string (C16_edit_distance_drops) and with n_t>=2 raises IndexError in the other direction (C16_edit_distance_raises)."
  },
  {
   "property": "C17",
   "status": "proved",
   "theorems": [
    "SegEval.Props.C17_range",
    "SegEval.Props.C17_one_minus",
    "SegEval.Props.C17_total"
   ],
   "note": ""
  },
  {
   "property": "C18",
   "status": "proved",
   "theorems": [
    "SegEval.Props.C18_one_iff",
    "SegEval.Props.C18_zero_iff"
   ],
   "note": ""
  },
  {
   "property": "C19",
   "status": "proved",
   "theorems": [
    "SegEval.Props.C19_boundary_symmetric",
    "SegEval.Props.C19_segmentation_symmetric",
    "SegEval.Props.C19_symmetric_one_type"
   ],
   "note": ""
  },
  {
   "property": "C20",
   "status": "proved",
   "theorems": [
    "SegEval.Props.C20_range",
    "SegEval.Props.C20_one_iff",
    "SegEval.Props.C20_boundary_le_segmentation"
   ],
   "note": ""
  },
  {
   "property": "C21",
   "status": "partial",
   "theorems": [
    "SegEval.Props.C21_denominator_partial",
    "SegEval.Props.C21_denominator_wrong",
    "SegEval.Props.C21_denominator_wrong_witness"
   ],
   "note": "False as stated: the number of types is squared (C21_denominator_wrong for every input with more than one type). Proved for one boundary type."
  },
  {
   "property": "C22",
   "status": "partial",
   "theorems": [
    "SegEval.Props.C22_self_partial",
    "SegEval.Props.C22_no_boundaries"
   ],
   "note": "False as stated: without any boundary both similarities raise ValueError (C22_no_boundaries, for all inputs). Proved for every segmentation with a boundary."
  },
  {
   "property": "C23",
   "status": "proved",
   "theorems": [
    "SegEval.Props.C23_lists",
    "SegEval.Props.C23_statistics",
    "SegEval.Props.C23_count_edits"
   ],
   "note": ""
  },
  {
   "property": "C24",
   "status": "partial",
   "theorems": [
    "SegEval.Props.C24_boundary_parts",
    "SegEval.Props.C24_segmentation_parts",
    "SegEval.Props.C24_one_minus_partial",
    "SegEval.Props.C24_unscaled_one_minus",
    "SegEval.Props.C24_pk_parts",
    "SegEval.Props.C24_pk_one_minus",
    "SegEval.Props.C24_pk_parts_ignore_one_minus",
    "SegEval.Props.C24_window_diff_parts",
    "SegEval.Props.C24_window_diff_one_minus"
   ],
   "note": "False as stated: with the unscaled weights one_minus raises TypeError (C24_unscaled_one_minus, Decimal minus float). Parts proved in full for all metrics; one_minus proved for the default weights of B and S and for pk and window_diff."
  },
  {
   "property": "C25",
   "status": "proved",
   "theorems": [
    "SegEval.Props.C25_at_least_two",
    "SegEval.Props.C25_half_mean",
    "SegEval.Props.C25_multiset",
    "SegEval.Props.C25_positions",
    "SegEval.Props.C25_round_nearest",
    "SegEval.Props.C25_interpreters"
   ],
   "note": ""
  },
  {
   "property": "C26",
   "status": "proved",
   "theorems": [
    "SegEval.Props.C26_range",
    "SegEval.Props.C26_total",
    "SegEval.Props.C26_self",
    "SegEval.Props.C26_self_zero"
   ],
   "note": ""
  },
  {
   "property": "C27",
   "status": "proved",
   "theorems": [
    "SegEval.Props.C27_range",
    "SegEval.Props.C27_self"
   ],
   "note": ""
  },
  {
   "property": "C28",
   "status": "proved",
   "theorems": [
    "SegEval.Props.C28_pk_le_window_diff"
   ],
   "note": ""
  },
  {
   "property": "C29",
   "status": "partial",
   "theorems": [
    "SegEval.Props.C29_small_windows_partial",
    "SegEval.Props.C29_large_windows"
   ],
   "note": "False as stated: for every window above 255 window_diff raises AssertionError (C29_large_windows: int identity). Proved for windows up to 255."
  },
  {
   "property": "C30",
   "status": "partial",
   "theorems": [
    "SegEval.Props.C30_defined_partial",
    "SegEval.Props.C30_two_units",
    "SegEval.Props.C30_long_document"
   ],
   "note": "False as stated: two-unit documents (C30_two_units) and documents of long segments (C30_long_document) raise. Proved for all other sizes."
  },
  {
   "property": "C31",
   "status": "proved",
   "theorems": [
    "SegEval.Props.C31_zero_iff",
    "SegEval.Props.C31_returns",
    "SegEval.Props.C31_without_fix",
    "SegEval.Props.C31_zero_label"
   ],
   "note": ""
  },
  {
   "property": "C32",
   "status": "proved",
   "theorems": [
    "SegEval.Props.C32_pk_symmetric",
    "SegEval.Props.C32_window_diff_symmetric",
    "SegEval.Props.C32_default_window"
   ],
   "note": ""
  },
  {
   "property": "C33",
   "status": "partial",
   "theorems": [
    "SegEval.Props.C33_classes_partial",
    "SegEval.Props.C33_classes_bounds",
    "SegEval.Props.C33_bare_row"
   ],
   "note": "False as stated (C33_bare_row: a bare m[p] lookup makes a row classes() does not list). Proved for every history without bare lookups, with bounds in general."
  },
  {
   "property": "C34",
   "status": "proved",
   "theorems": [
    "SegEval.Props.C34_cells"
   ],
   "note": ""
  },
  {
   "property": "C35",
   "status": "proved",
   "theorems": [
    "SegEval.Props.C35_micro"
   ],
   "note": ""
  },
  {
   "property": "C36",
   "status": "proved",
   "theorems": [
    "SegEval.Props.C36_range",
    "SegEval.Props.C36_formulas",
    "SegEval.Props.C36_zero",
    "SegEval.Props.C36_between",
    "SegEval.Props.C36_total",
    "SegEval.Props.C36_decimal_zero"
   ],
   "note": ""
  },
  {
   "property": "C37",
   "status": "partial",
   "theorems": [
    "SegEval.Props.C37_class_and_micro",
    "SegEval.Props.C37_known_classes_partial",
    "SegEval.Props.C37_macro_after",
    "SegEval.Props.C37_macro_iff",
    "SegEval.Props.C37_unknown_class"
   ],
   "note": "False as stated for macro averages (C37_unknown_class). Proved for per-class and micro queries without restriction; C37_macro_after says by what factor later macro averages shrink and C37_macro_iff exactly when they stay the same."
  },
  {
   "property": "C38",
   "status": "proved",
   "theorems": [
    "SegEval.Props.C38_cells",
    "SegEval.Props.C38_totals",
    "SegEval.Props.C38_reachable"
   ],
   "note": ""
  },
  {
   "property": "C39",
   "status": "partial",
   "theorems": [
    "SegEval.Props.C39_swapped",
    "SegEval.Props.C39_refuted"
   ],
   "note": "False as stated: refuted by C39_refuted; C39_swapped proves the roles are always exchanged."
  },
  {
   "property": "C40",
   "status": "partial",
   "theorems": [
    "SegEval.Props.C40_credit",
    "SegEval.Props.C40_inverted",
    "SegEval.Props.C40_refuted",
    "SegEval.Props.C40_unscaled"
   ],
   "note": "False as stated: refuted by C40_refuted; C40_inverted proves the opposite for all inputs."
  },
  {
   "property": "C41",
   "status": "proved",
   "theorems": [
    "SegEval.Props.C41_entries",
    "SegEval.Props.C41_complete",
    "SegEval.Props.C41_raises"
   ],
   "note": ""
  },
  {
   "property": "C42",
   "status": "proved",
   "theorems": [
    "SegEval.Props.C42_entries",
    "SegEval.Props.C42_raises"
   ],
   "note": ""
  },
  {
   "property": "C43",
   "status": "partial",
   "theorems": [
    "SegEval.Props.C43_keys_partial",
    "SegEval.Props.C43_exact",
    "SegEval.Props.C43_refuted"
   ],
   "note": "False as stated: refuted by C43_refuted (coder names with commas collide). Proved for all labels and comma-free coder names; C43_exact says exactly which keys can collide."
  },
  {
   "property": "C44",
   "status": "partial",
   "theorems": [
    "SegEval.Props.C44_mixed",
    "SegEval.Props.C44_any_accepts",
    "SegEval.Props.C44_any_else",
    "SegEval.Props.C44_mixed_raises",
    "SegEval.Props.C44_mixed_number",
    "SegEval.Props.C44_mixed_window",
    "SegEval.Props.C44_mixed_slices",
    "SegEval.Props.C44_accepts",
    "SegEval.Props.C44_nothing_else",
    "SegEval.Props.C44_rejects_partial",
    "SegEval.Props.C44_not_dataset",
    "SegEval.Props.C44_leftover"
   ],
   "note": "False as stated: C44_not_dataset and C44_leftover raise AttributeError/TypeError, and C44_mixed_number and C44_mixed_window give a number for a dataset beside a segmentation with boundary_format=position. C44_any_else: no other combination yields a number. SegmentationMetricError for documented argument kinds."
  },
  {
   "property": "C45",
   "status": "proved",
   "theorems": [
    "SegEval.Props.C45_summary",
    "SegEval.Props.C45_empty"
   ],
   "note": ""
  },
  {
   "property": "C46",
   "status": "proved",
   "theorems": [
    "SegEval.Props.C46_actual"
   ],
   "note": ""
  },
  {
   "property": "C47",
   "status": "proved",
   "theorems": [
    "SegEval.Props.C47_actual",
    "SegEval.Props.C47_pi",
    "SegEval.Props.C47_kappa"
   ],
   "note": ""
  },
  {
   "property": "C48",
   "status": "proved",
   "theorems": [
    "SegEval.Props.C48_pi",
    "SegEval.Props.C48_kappa",
    "SegEval.Props.C48_complete"
   ],
   "note": ""
  },
  {
   "property": "C49",
   "status": "partial",
   "theorems": [
    "SegEval.Props.C49_pi_partial",
    "SegEval.Props.C49_kappa_partial",
    "SegEval.Props.C49_refuted"
   ],
   "note": "False as stated: refuted by C49_refuted (all coders place every boundary everywhere, so expected agreement is 1). Exact condition proved: defined iff not saturated."
  },
  {
   "property": "C50",
   "status": "partial",
   "theorems": [
    "SegEval.Props.C50_value",
    "SegEval.Props.C50_nonneg_partial",
    "SegEval.Props.C50_refuted"
   ],
   "note": "False as stated: refuted by C50_refuted (items of different sizes). Value proved in full; non-negativity proved when all comparisons have one size."
  },
  {
   "property": "C51",
   "status": "partial",
   "theorems": [
    "SegEval.Props.C51_history_partial",
    "SegEval.Props.C51_loaded_json",
    "SegEval.Props.C51_loaded_tsv",
    "SegEval.Props.C51_unusable",
    "SegEval.Props.C51_assignment",
    "SegEval.Props.C51_shared"
   ],
   "note": "False as stated: datasets loaded from JSON or TSV never have coders (C51_loaded_json, C51_loaded_tsv; agreement then always raises, C51_unusable), item assignment and shared source dicts also break it. Proved for every history of construction from dict literals, +=, + and copy."
  },
  {
   "property": "C52",
   "status": "partial",
   "theorems": [
    "SegEval.Props.C52_values",
    "SegEval.Props.C52_add_partial",
    "SegEval.Props.C52_iadd_partial",
    "SegEval.Props.C52_refuted"
   ],
   "note": "False as stated when one dict object is two items of the left operand (C52_refuted). Proved in full for values, and in memory when no two items are the same object."
  },
  {
   "property": "C53",
   "status": "partial",
   "theorems": [
    "SegEval.Props.C53_copy",
    "SegEval.Props.C53_add",
    "SegEval.Props.C53_add_later_partial",
    "SegEval.Props.C53_refuted"
   ],
   "note": "False as stated when the right operand holds list segmentations (C53_refuted: the sum shares them). copy is proved in full; + never changes its operands; later changes are proved independent for tuple segmentations."
  },
  {
   "property": "C54",
   "status": "partial",
   "theorems": [
    "SegEval.Props.C54_others_partial",
    "SegEval.Props.C54_failure_partial",
    "SegEval.Props.C54_self_partial",
    "SegEval.Props.C54_history_partial",
    "SegEval.Props.C54_refuted",
    "SegEval.Props.C54_shared"
   ],
   "note": "False as stated: a failed += keeps what was added before the duplicate (C54_refuted), and datasets constructed from one dict share items (C54_shared). Proved: exactly what remains after a failure, datasets that share nothing with a never change, a += a changes nothing."
  },
  {
   "property": "C55",
   "status": "partial",
   "theorems": [
    "SegEval.Props.C55_partial",
    "SegEval.Props.C55_other_type",
    "SegEval.Props.C55_refuted"
   ],
   "note": "False as stated: a property named 'items' or 'segmentation_type' replaces the field of that name (C55_refuted, C55_other_type). Proved for all other property maps. At the level of parsed values; C86 is the same on the text of files."
  },
  {
   "property": "C56",
   "status": "partial",
   "theorems": [
    "SegEval.Props.C56_object_partial",
    "SegEval.Props.C56_loaded",
    "SegEval.Props.C56_refuted"
   ],
   "note": "False as stated for documents that are not objects (C56_refuted: null raises TypeError). Proved exactly for all objects, and that nothing else ever loads."
  },
  {
   "property": "C57",
   "status": "partial",
   "theorems": [
    "SegEval.Props.C57_partial",
    "SegEval.Props.C57_errors",
    "SegEval.Props.C57_refuted"
   ],
   "note": "False as stated: a blank line raises KeyError (C57_refuted). Exact condition for loading, the content and the exceptions are proved for all rows. int() is a parameter here; C81 models the csv reader and int() and states the same about the text of the file."
  },
  {
   "property": "C58",
   "status": "partial",
   "theorems": [
    "SegEval.Props.C58_content_partial",
    "SegEval.Props.C58_items_partial",
    "SegEval.Props.C58_success_partial",
    "SegEval.Props.C58_failure_partial",
    "SegEval.Props.C58_order_partial",
    "SegEval.Props.C58_refuted",
    "SegEval.Props.C58_exact_content",
    "SegEval.Props.C58_exact_items",
    "SegEval.Props.C58_exact_success",
    "SegEval.Props.C58_exact_failure"
   ],
   "note": "False as stated: of a.tsv and a.csv only the one listed last is loaded (C58_refuted). Proved in full when no folder has matching files that differ only in extension; C58_exact_* say what happens in every tree."
  },
  {
   "property": "C59",
   "status": "proved",
   "theorems": [
    "SegEval.Props.C59_order_independent"
   ],
   "note": ""
  },
  {
   "property": "C60",
   "status": "proved",
   "theorems": [
    "SegEval.Props.C60_pk_formula"
   ],
   "note": ""
  },
  {
   "property": "C61",
   "status": "proved",
   "theorems": [
    "SegEval.Props.C61_window_diff_formula",
    "SegEval.Props.C61_returns_iff"
   ],
   "note": ""
  },
  {
   "property": "C62",
   "status": "proved",
   "theorems": [
    "SegEval.Props.C62_fixed_formula",
    "SegEval.Props.C62_returns_iff"
   ],
   "note": ""
  },
  {
   "property": "C63",
   "status": "proved",
   "theorems": [
    "SegEval.Props.C63_actual",
    "SegEval.Props.C63_pi",
    "SegEval.Props.C63_kappa"
   ],
   "note": ""
  },
  {
   "property": "C64",
   "status": "proved",
   "theorems": [
    "SegEval.Props.C64_boundary",
    "SegEval.Props.C64_segmentation",
    "SegEval.Props.C64_unscaled"
   ],
   "note": ""
  },
  {
   "property": "C65",
   "status": "proved",
   "theorems": [
    "SegEval.Props.C65_greedy",
    "SegEval.Props.C65_complete",
    "SegEval.Props.C65_order",
    "SegEval.Props.C65_unique"
   ],
   "note": ""
  },
  {
   "property": "C66",
   "status": "proved",
   "theorems": [
    "SegEval.Props.C66_pk_triangle",
    "SegEval.Props.C66_window_diff_triangle",
    "SegEval.Props.C66_fixed_triangle",
    "SegEval.Props.C66_not_boundary_similarity"
   ],
   "note": ""
  },
  {
   "property": "C67",
   "status": "proved",
   "theorems": [
    "SegEval.Props.C67_pk_reversed",
    "SegEval.Props.C67_window_diff_reversed",
    "SegEval.Props.C67_fixed_reversed",
    "SegEval.Props.C67_similarity_reversed",
    "SegEval.Props.C67_similarity_reversed_formats",
    "SegEval.Props.C67_not_larger_window",
    "SegEval.Props.C67_not_two_types"
   ],
   "note": ""
  },
  {
   "property": "C68",
   "status": "proved",
   "theorems": [
    "SegEval.Props.C68_context",
    "SegEval.Props.C68_boundary",
    "SegEval.Props.C68_segmentation",
    "SegEval.Props.C68_default_context"
   ],
   "note": ""
  },
  {
   "property": "C69",
   "status": "proved",
   "theorems": [
    "SegEval.Props.C69_pk",
    "SegEval.Props.C69_window_diff",
    "SegEval.Props.C69_unscaled"
   ],
   "note": ""
  },
  {
   "property": "C70",
   "status": "proved",
   "theorems": [
    "SegEval.Props.C70_boundary",
    "SegEval.Props.C70_segmentation",
    "SegEval.Props.C70_default_context",
    "SegEval.Props.C70_ends",
    "SegEval.Props.C70_ends_default_context"
   ],
   "note": ""
  },
  {
   "property": "C71",
   "status": "proved",
   "theorems": [
    "SegEval.Props.C71_symmetric",
    "SegEval.Props.C71_order_independent",
    "SegEval.Props.C71_formats",
    "SegEval.Props.C71_complement_inexact"
   ],
   "note": ""
  },
  {
   "property": "C72",
   "status": "proved",
   "theorems": [
    "SegEval.Props.C72_mean_bounds",
    "SegEval.Props.C72_mean_error",
    "SegEval.Props.C72_mean_ints",
    "SegEval.Props.C72_variance",
    "SegEval.Props.C72_default_context",
    "SegEval.Props.C72_order_bound",
    "SegEval.Props.C72_equal_values",
    "SegEval.Props.C72_order_dependent"
   ],
   "note": ""
  },
  {
   "property": "C73",
   "status": "proved",
   "theorems": [
    "SegEval.Props.C73_actual_errors",
    "SegEval.Props.C73_actual_range",
    "SegEval.Props.C73_actual_error",
    "SegEval.Props.C73_pi_range",
    "SegEval.Props.C73_kappa_range",
    "SegEval.Props.C73_pi_default_context",
    "SegEval.Props.C73_kappa_default_context",
    "SegEval.Props.C73_bias_default_context",
    "SegEval.Props.C73_bias_refuted",
    "SegEval.Props.C73_order_refuted"
   ],
   "note": ""
  },
  {
   "property": "C74",
   "status": "proved",
   "theorems": [
    "SegEval.Props.C74_edits",
    "SegEval.Props.C74_gap_needed",
    "SegEval.Props.C74_boundary",
    "SegEval.Props.C74_segmentation",
    "SegEval.Props.C74_join"
   ],
   "note": ""
  },
  {
   "property": "C75",
   "status": "proved",
   "theorems": [
    "SegEval.Props.C75_edits",
    "SegEval.Props.C75_boundary",
    "SegEval.Props.C75_segmentation",
    "SegEval.Props.C75_single",
    "SegEval.Props.C75_near_miss_refuted",
    "SegEval.Props.C75_types_refuted"
   ],
   "note": ""
  },
  {
   "property": "C76",
   "status": "proved",
   "theorems": [
    "SegEval.Props.C76_segmentation_kappa",
    "SegEval.Props.C76_segmentation_one_type",
    "SegEval.Props.C76_segmentation_two",
    "SegEval.Props.C76_segmentation_pi",
    "SegEval.Props.C76_segmentation_attained",
    "SegEval.Props.C76_kappa",
    "SegEval.Props.C76_kappa_one_type",
    "SegEval.Props.C76_kappa_two",
    "SegEval.Props.C76_pi",
    "SegEval.Props.C76_attained",
    "SegEval.Props.C76_pi_refuted"
   ],
   "note": ""
  },
  {
   "property": "C77",
   "status": "proved",
   "theorems": [
    "SegEval.Props.C77_boundary",
    "SegEval.Props.C77_defined",
    "SegEval.Props.C77_segmentation",
    "SegEval.Props.C77_window",
    "SegEval.Props.C77_agreement"
   ],
   "note": ""
  },
  {
   "property": "C78",
   "status": "proved",
   "theorems": [
    "SegEval.Props.C78_boundary",
    "SegEval.Props.C78_segmentation",
    "SegEval.Props.C78_defined",
    "SegEval.Props.C78_range",
    "SegEval.Props.C78_one_iff",
    "SegEval.Props.C78_dearer",
    "SegEval.Props.C78_segmentation_range",
    "SegEval.Props.C78_scaling_pays",
    "SegEval.Props.C78_overcharged",
    "SegEval.Props.C78_mixed_fails"
   ],
   "note": ""
  },
  {
   "property": "C79",
   "status": "proved",
   "theorems": [
    "SegEval.Props.C79_agreement",
    "SegEval.Props.C79_pairwise",
    "SegEval.Props.C79_pk",
    "SegEval.Props.C79_window_diff"
   ],
   "note": ""
  },
  {
   "property": "C80",
   "status": "proved",
   "theorems": [
    "SegEval.Props.C80_from_dicts",
    "SegEval.Props.C80_from_literal",
    "SegEval.Props.C80_iadd_keeps",
    "SegEval.Props.C80_add_keeps",
    "SegEval.Props.C80_mixed"
   ],
   "note": ""
  },
  {
   "property": "C81",
   "status": "proved",
   "theorems": [
    "SegEval.Props.C81_int",
    "SegEval.Props.C81_decimal",
    "SegEval.Props.C81_loads_iff",
    "SegEval.Props.C81_content",
    "SegEval.Props.C81_raises",
    "SegEval.Props.C81_blank_line",
    "SegEval.Props.C81_nul"
   ],
   "note": ""
  },
  {
   "property": "C82",
   "status": "proved",
   "theorems": [
    "SegEval.Props.C82_positions"
   ],
   "note": ""
  },
  {
   "property": "C83",
   "status": "proved",
   "theorems": [
    "SegEval.Props.C83_name",
    "SegEval.Props.C83_loaded"
   ],
   "note": ""
  },
  {
   "property": "C84",
   "status": "proved",
   "theorems": [
    "SegEval.Props.C84_content",
    "SegEval.Props.C84_items",
    "SegEval.Props.C84_success",
    "SegEval.Props.C84_commas"
   ],
   "note": ""
  },
  {
   "property": "C85",
   "status": "proved",
   "theorems": [
    "SegEval.Props.C85_paired_unique",
    "SegEval.Props.C85_paired_loads",
    "SegEval.Props.C85_paired_holds",
    "SegEval.Props.C85_paired_malformed",
    "SegEval.Props.C85_paired_errors",
    "SegEval.Props.C85_unique",
    "SegEval.Props.C85_loads",
    "SegEval.Props.C85_holds",
    "SegEval.Props.C85_malformed",
    "SegEval.Props.C85_errors",
    "SegEval.Props.C85_agrees",
    "SegEval.Props.C85_attributes"
   ],
   "note": "For every text, on the loader with strings of code points (Model/JsonWide); the C85_paired_* theorems are about the loader with strings of characters, and C85_agrees links the two."
  },
  {
   "property": "C86",
   "status": "partial",
   "theorems": [
    "SegEval.Props.C86_document",
    "SegEval.Props.C86_round_trip_partial",
    "SegEval.Props.C86_ascii",
    "SegEval.Props.C86_same_partial",
    "SegEval.Props.C86_stable_partial",
    "SegEval.Props.C86_refuted"
   ],
   "note": "False for datasets with a property named 'items' (C86_refuted) or a segmentation_type other than linear (C55_other_type); proved for all others. C86_document and C86_ascii hold for all."
  },
  {
   "property": "C87",
   "status": "proved",
   "theorems": [
    "SegEval.Props.C87_content",
    "SegEval.Props.C87_items",
    "SegEval.Props.C87_success",
    "SegEval.Props.C87_failure"
   ],
   "note": ""
  },
  {
   "property": "C88",
   "status": "proved",
   "theorems": [
    "SegEval.Props.C88_defined",
    "SegEval.Props.C88_order",
    "SegEval.Props.C88_segmentation_defined",
    "SegEval.Props.C88_segmentation_order"
   ],
   "note": ""
  },
  {
   "property": "C89",
   "status": "proved",
   "theorems": [
    "SegEval.Props.C89_repeat",
    "SegEval.Props.C89_segmentation"
   ],
   "note": ""
  },
  {
   "property": "C90",
   "status": "proved",
   "theorems": [
    "SegEval.Props.C90_permuted",
    "SegEval.Props.C90_symmetric",
    "SegEval.Props.C90_two",
    "SegEval.Props.C90_similarity",
    "SegEval.Props.C90_summary",
    "SegEval.Props.C90_keys"
   ],
   "note": ""
  },
  {
   "property": "C91",
   "status": "partial",
   "theorems": [
    "SegEval.Props.C91_saved_partial",
    "SegEval.Props.C91_format"
   ],
   "note": "False as stated: agreement raises for the loaded Dataset (it has no coders), and a dataset in another boundary format gives the file of a dataset of masses (C91_format). Proved for masses, with agreement of the items as a dict; as for C86, no property may be named 'items' or give another segmentation_type."
  },
  {
   "property": "C92",
   "status": "proved",
   "theorems": [
    "SegEval.Props.C92_tsv",
    "SegEval.Props.C92_json"
   ],
   "note": ""
  },
  {
   "property": "C93",
   "status": "proved",
   "theorems": [
    "SegEval.Props.C93_exports",
    "SegEval.Props.C93_summarize",
    "SegEval.Props.C93_refuted",
    "SegEval.Props.C93_others",
    "SegEval.Props.C93_dir"
   ],
   "note": ""
  },
  {
   "property": "C94",
   "status": "proved",
   "theorems": [
    "SegEval.Props.C94_import",
    "SegEval.Props.C94_compute",
    "SegEval.Props.C94_all",
    "SegEval.Props.C94_all_refuted"
   ],
   "note": ""
  },
  {
   "property": "C95",
   "status": "proved",
   "theorems": [
    "SegEval.Props.C95_actual",
    "SegEval.Props.C95_weighted",
    "SegEval.Props.C95_order",
    "SegEval.Props.C95_pi",
    "SegEval.Props.C95_kappa"
   ],
   "note": ""
  },
  {
   "property": "C96",
   "status": "proved",
   "theorems": [
    "SegEval.Props.C96_actual",
    "SegEval.Props.C96_pi",
    "SegEval.Props.C96_kappa",
    "SegEval.Props.C96_bias"
   ],
   "note": ""
  },
  {
   "property": "C97",
   "status": "proved",
   "theorems": [
    "SegEval.Props.C97_pairwise",
    "SegEval.Props.C97_clash",
    "SegEval.Props.C97_int_item"
   ],
   "note": ""
  },
  {
   "property": "C98",
   "status": "proved",
   "theorems": [
    "SegEval.Props.C98_fails",
    "SegEval.Props.C98_round_trip",
    "SegEval.Props.C98_again_refuted"
   ],
   "note": "C98_again_refuted: int names are sorted as ints, loaded names as strings, so that saving again gives another file."
  },
  {
   "property": "C99",
   "status": "proved",
   "theorems": [
    "SegEval.Props.C99_lost",
    "SegEval.Props.C99_raises"
   ],
   "note": "For every failed save, on the loader with strings of code points."
  },
  {
   "property": "C100",
   "status": "proved",
   "theorems": [
    "SegEval.Props.C100_similarity_raises",
    "SegEval.Props.C100_window_raises",
    "SegEval.Props.C100_positions",
    "SegEval.Props.C100_fitting"
   ],
   "note": "pk and window_diff of strings or sets given as positions are not modelled (identity of the elements)."
  },
  {
   "property": "C101",
   "status": "proved",
   "theorems": [
    "SegEval.Props.C101_edits",
    "SegEval.Props.C101_boundary",
    "SegEval.Props.C101_segmentation",
    "SegEval.Props.C101_omission",
    "SegEval.Props.C101_order",
    "SegEval.Props.C101_far",
    "SegEval.Props.C101_isolated_needed"
   ],
   "note": ""
  },
  {
   "property": "C102",
   "status": "proved",
   "theorems": [
    "SegEval.Props.C102_edits",
    "SegEval.Props.C102_distances",
    "SegEval.Props.C102_counted",
    "SegEval.Props.C102_not_stretched"
   ],
   "note": ""
  },
  {
   "property": "C103",
   "status": "partial",
   "theorems": [
    "SegEval.Props.C103_independent",
    "SegEval.Props.C103_changed_partial",
    "SegEval.Props.C103_own_set",
    "SegEval.Props.C103_shared",
    "SegEval.Props.C103_recovers",
    "SegEval.Props.C103_cells"
   ],
   "note": "False as stated for the set that classes() of a matrix never written to returns (C103_shared: it is an attribute of the class, common to all). Proved when sets are not changed, and when the changed sets come from other matrices and are not that one; cells are never shared (C103_cells) and classes() is right again after a write (C103_recovers)."
  },
  {
   "property": "C104",
   "status": "partial",
   "theorems": [
    "SegEval.Props.C104_boundary_partial",
    "SegEval.Props.C104_segmentation_partial",
    "SegEval.Props.C104_unscaled",
    "SegEval.Props.C104_two_types",
    "SegEval.Props.C104_jaccard",
    "SegEval.Props.C104_agreeing"
   ],
   "note": "False as stated when each segmentation has a type of its own at some position (C104_two_types). Proved in full when that is not so (in particular for one boundary type), and for the unscaled weight functions whatever the types; for n_t up to 1 the values are the Jaccard index and the share of agreement."
  },
  {
   "property": "C105",
   "status": "partial",
   "theorems": [
    "SegEval.Props.C105_boundary_partial",
    "SegEval.Props.C105_segmentation_partial",
    "SegEval.Props.C105_boundary_refuted",
    "SegEval.Props.C105_segmentation_refuted",
    "SegEval.Props.C105_segmentation_types"
   ],
   "note": "False as stated for the default n_t (C105_boundary_refuted, C105_segmentation_refuted), and for S with several boundary types (C105_segmentation_types). Proved for n_t up to 1: for B when at no position each segmentation has a type the other lacks, for S with one type."
  },
  {
   "property": "C106",
   "status": "partial",
   "theorems": [
    "SegEval.Props.C106_actual_partial",
    "SegEval.Props.C106_segmentation_partial",
    "SegEval.Props.C106_pi_expected",
    "SegEval.Props.C106_kappa_refuted",
    "SegEval.Props.C106_pi_refuted",
    "SegEval.Props.C106_kappa_expected_refuted"
   ],
   "note": "Between-ness is proved for actual agreement (both similarities; the theorem also says that the whole is defined) and for pi's expected agreement. The claim is false for pi, kappa and kappa's expected agreement (C106_pi_refuted, C106_kappa_refuted, C106_kappa_expected_refuted)."
  },
  {
   "property": "C107",
   "status": "proved",
   "theorems": [
    "SegEval.Props.C107_preferred",
    "SegEval.Props.C107_determined",
    "SegEval.Props.C107_smaller"
   ],
   "note": ""
  },
  {
   "property": "C108",
   "status": "proved",
   "theorems": [
    "SegEval.Props.C108_queries",
    "SegEval.Props.C108_transposed",
    "SegEval.Props.C108_exchange"
   ],
   "note": ""
  },
  {
   "property": "C109",
   "status": "proved",
   "theorems": [
    "SegEval.Props.C109_micro",
    "SegEval.Props.C109_unscaled",
    "SegEval.Props.C109_dice"
   ],
   "note": ""
  },
  {
   "property": "C110",
   "status": "proved",
   "theorems": [
    "SegEval.Props.C110_range",
    "SegEval.Props.C110_boundaries",
    "SegEval.Props.C110_counts",
    "SegEval.Props.C110_counts_micro",
    "SegEval.Props.C110_micro_refuted",
    "SegEval.Props.C110_f1_refuted",
    "SegEval.Props.C110_exchange_refuted",
    "SegEval.Props.C110_weight_refuted",
    "SegEval.Props.C110_order_refuted"
   ],
   "note": ""
  },
  {
   "property": "C111",
   "status": "proved",
   "theorems": [
    "SegEval.Props.C111_answers",
    "SegEval.Props.C111_query_raises",
    "SegEval.Props.C111_increment_raises",
    "SegEval.Props.C111_reachable",
    "SegEval.Props.C111_cells",
    "SegEval.Props.C111_classes",
    "SegEval.Props.C111_class_and_micro",
    "SegEval.Props.C111_macro_after",
    "SegEval.Props.C111_dict",
    "SegEval.Props.C111_dict_stops",
    "SegEval.Props.C111_dict_bare_row"
   ],
   "note": ""
  },
  {
   "property": "C112",
   "status": "proved",
   "theorems": [
    "SegEval.Props.C112_error",
    "SegEval.Props.C112_context",
    "SegEval.Props.C112_boundaries",
    "SegEval.Props.C112_negative_refuted"
   ],
   "note": ""
  },
  {
   "property": "C113",
   "status": "proved",
   "theorems": [
    "SegEval.Props.C113_pk_difference",
    "SegEval.Props.C113_window_diff_difference",
    "SegEval.Props.C113_fixed_difference",
    "SegEval.Props.C113_pk_moved",
    "SegEval.Props.C113_window_diff_moved",
    "SegEval.Props.C113_pk_one",
    "SegEval.Props.C113_window_diff_one",
    "SegEval.Props.C113_fixed_one",
    "SegEval.Props.C113_fixed_near_miss",
    "SegEval.Props.C113_fixed_worth"
   ],
   "note": ""
  },
  {
   "property": "C114",
   "status": "proved",
   "theorems": [
    "SegEval.Props.C114_boundary",
    "SegEval.Props.C114_segmentation",
    "SegEval.Props.C114_formats",
    "SegEval.Props.C114_boundary_types",
    "SegEval.Props.C114_segmentation_types",
    "SegEval.Props.C114_two_types",
    "SegEval.Props.C114_unscaled"
   ],
   "note": ""
  },
  {
   "property": "C115",
   "status": "proved",
   "theorems": [
    "SegEval.Props.C115_masses",
    "SegEval.Props.C115_strings",
    "SegEval.Props.C115_pk",
    "SegEval.Props.C115_window_diff"
   ],
   "note": ""
  },
  {
   "property": "C116",
   "status": "proved",
   "theorems": [
    "SegEval.Props.C116_refines",
    "SegEval.Props.C116_everywhere",
    "SegEval.Props.C116_pk_baselines",
    "SegEval.Props.C116_window_diff_none"
   ],
   "note": ""
  },
  {
   "property": "C117",
   "status": "proved",
   "theorems": [
    "SegEval.Props.C117_edits",
    "SegEval.Props.C117_boundary",
    "SegEval.Props.C117_segmentation",
    "SegEval.Props.C117_longer",
    "SegEval.Props.C117_segments"
   ],
   "note": ""
  },
  {
   "property": "C118",
   "status": "proved",
   "theorems": [
    "SegEval.Props.C118_boundary",
    "SegEval.Props.C118_segmentation"
   ],
   "note": ""
  },
  {
   "property": "C119",
   "status": "partial",
   "theorems": [
    "SegEval.Props.C119_segmentation_partial",
    "SegEval.Props.C119_boundary_refuted",
    "SegEval.Props.C119_types_refuted",
    "SegEval.Props.C119_letter_refuted"
   ],
   "note": "False as stated for the default comparison (C119_boundary_refuted), for several types (C119_types_refuted) and for the docstring's formulas to the letter (C119_letter_refuted). Proved for segmentation similarity with one boundary type and potential boundaries as the size."
  },
  {
   "property": "C120",
   "status": "partial",
   "theorems": [
    "SegEval.Props.C120_kappa_partial",
    "SegEval.Props.C120_pi_partial",
    "SegEval.Props.C120_refuted",
    "SegEval.Props.C120_sizes"
   ],
   "note": "False as stated: refuted by C120_refuted and C120_sizes. Proved: exactly what kappa and pi are without near misses, that kappa is never below multi-kappa and when it equals it, and the same for pi over items of one size."
  },
  {
   "property": "C121",
   "status": "proved",
   "theorems": [
    "SegEval.Props.C121_same",
    "SegEval.Props.C121_figure"
   ],
   "note": ""
  },
  {
   "property": "C122",
   "status": "partial",
   "theorems": [
    "SegEval.Props.C122_actual_partial",
    "SegEval.Props.C122_segmentation_partial",
    "SegEval.Props.C122_kappa_partial",
    "SegEval.Props.C122_pi_partial",
    "SegEval.Props.C122_kappa_refuted",
    "SegEval.Props.C122_pi_refuted",
    "SegEval.Props.C122_pi_lower_refuted"
   ],
   "note": "False as stated for kappa with the default comparison (C122_kappa_refuted) and for pi with either comparison (C122_pi_refuted). Proved: actual agreement of both comparisons, including that every pair has one; kappa with segmentation similarity and one boundary type; the lower half for pi with segmentation similarity. The lower half for pi with the default comparison is false too (C122_pi_lower_refuted)."
  },
  {
   "property": "C123",
   "status": "partial",
   "theorems": [
    "SegEval.Props.C123_datasets_unknown_refused",
    "SegEval.Props.C123_datasets_known_taken",
    "SegEval.Props.C123_unknown_refused",
    "SegEval.Props.C123_known_taken",
    "SegEval.Props.C123_dataset_unknown_refused",
    "SegEval.Props.C123_dataset_known_taken",
    "SegEval.Props.C123_dataset_unnoticed_refuted",
    "SegEval.Props.C123_dataset_b_refuted",
    "SegEval.Props.C123_agreement_taken_partial",
    "SegEval.Props.C123_agreement_ignored",
    "SegEval.Props.C123_one_minus_refuted",
    "SegEval.Props.C123_window_compare_refuted",
    "SegEval.Props.C123_agreement_unknown_refused"
   ],
   "note": "Proved: unknown keywords are refused and known ones are taken by all metrics of two segmentations and by datasets in which something is compared; misspelt keywords never give an agreement coefficient. Refuted: misspelt keywords on datasets without pairs, one_minus (and permuted, boundary_types) of agreement, fnc_compare=pk or window_diff, and the format check with dataset_b. Values of other types than documented are not modelled."
  },
  {
   "property": "C124",
   "status": "partial",
   "theorems": [
    "SegEval.Props.C124_copy_method",
    "SegEval.Props.C124_copy_in_memory",
    "SegEval.Props.C124_std_copies_partial",
    "SegEval.Props.C124_deepcopy_pairwise",
    "SegEval.Props.C124_deepcopy_agreement_refuted",
    "SegEval.Props.C124_deepcopy_format_refuted"
   ],
   "note": "Proved for copy(), also in the heap model. Refuted for the copies of the standard library: deep copies and unpickled datasets are rebuilt by defaultdict and keep only the items (so pairwise scores of mass datasets, but neither coders, hence agreement, nor the format); copy.copy gives the items as properties too."
  },
  {
   "property": "C125",
   "status": "partial",
   "theorems": [
    "SegEval.Props.C125_different_refused",
    "SegEval.Props.C125_same_object_partial",
    "SegEval.Props.C125_refuted"
   ],
   "note": "Differing formats are always refused, and formats that are one object are compared as stated. Refuted for equal format strings that are different objects: `is not` refuses them."
  },
  {
   "property": "C126",
   "status": "partial",
   "theorems": [
    "SegEval.Props.C126_masses",
    "SegEval.Props.C126_positions",
    "SegEval.Props.C126_strings",
    "SegEval.Props.C126_default_window",
    "SegEval.Props.C126_pk",
    "SegEval.Props.C126_window_diff",
    "SegEval.Props.C126_window_diff_fixed",
    "SegEval.Props.C126_boundary",
    "SegEval.Props.C126_segmentation",
    "SegEval.Props.C126_boundary_masses",
    "SegEval.Props.C126_similarities_refuted",
    "SegEval.Props.C126_default_window_refuted",
    "SegEval.Props.C126_scaled_matrix",
    "SegEval.Props.C126_scaled_micro",
    "SegEval.Props.C126_scaled_edits",
    "SegEval.Props.C126_scaled_boundary",
    "SegEval.Props.C126_scaled_returns",
    "SegEval.Props.C126_scaled_segmentation",
    "SegEval.Props.C126_scaled_masses"
   ],
   "note": "Proved for Pk and WindowDiff with the window multiplied alike, and for boundary similarity with n_t multiplied alike (the edits are the same); with lamprier_fix and for segmentation similarity the exact change is proved. Refuted for the default window and for the similarities with the same n_t, for which the value in smaller units is proved for n_t up to m (Jaccard index, never higher; formula for segmentation similarity). With n_t multiplied alike every cell of the boundary confusion matrix, hence micro-averaged precision and recall, is the same too (C126_scaled_matrix, C126_scaled_micro)."
  },
  {
   "property": "C127",
   "status": "partial",
   "theorems": [
    "SegEval.Props.C127_actual",
    "SegEval.Props.C127_pi",
    "SegEval.Props.C127_kappa",
    "SegEval.Props.C127_actual_segmentation",
    "SegEval.Props.C127_refuted",
    "SegEval.Props.C127_bias"
   ],
   "note": "Proved for actual agreement (both comparisons; with segmentation similarity the exact change). Refuted for pi and kappa (C127_refuted); proved that they never fall, and exactly when they are unchanged for m of 2 or more: pi only when it is 1, kappa only when it is 1 or its expected agreement 0. For documents of one length the annotator bias and both expected agreements shrink with the square of the number of potential boundaries (C127_bias)."
  },
  {
   "property": "C128",
   "status": "partial",
   "theorems": [
    "SegEval.Props.C128_members",
    "SegEval.Props.C128_distinct",
    "SegEval.Props.C128_refuted",
    "SegEval.Props.C128_package",
    "SegEval.Props.C128_format",
    "SegEval.Props.C128_average"
   ],
   "note": "Refuted in general (C128_refuted); C128_distinct gives the exact condition for distinct names, C128_members the value of every member, C128_package the claim for the four enumerations of the package, C128_format and C128_average what the keywords take."
  },
  {
   "property": "C129",
   "status": "partial",
   "theorems": [
    "SegEval.Props.C129_only",
    "SegEval.Props.C129_refused",
    "SegEval.Props.C129_round_trip",
    "SegEval.Props.C129_refuted",
    "SegEval.Props.C129_lost",
    "SegEval.Props.C129_load",
    "SegEval.Props.C129_last",
    "SegEval.Props.C129_apart"
   ],
   "note": "Proved for paths that are no folders (C129_round_trip; conditions on the properties as in C98) and that one file at most changes (C129_only), nothing if it cannot be opened (C129_refused), and that saves to different files commute (C129_apart). Refuted for paths of folders (C129_refuted, C129_last)."
  },
  {
   "property": "C130",
   "status": "partial",
   "theorems": [
    "SegEval.Props.C130_actual",
    "SegEval.Props.C130_pi",
    "SegEval.Props.C130_refuted",
    "SegEval.Props.C130_kappa",
    "SegEval.Props.C130_bias",
    "SegEval.Props.C130_uneven",
    "SegEval.Props.C130_similarity",
    "SegEval.Props.C130_similarity_pi",
    "SegEval.Props.C130_similarity_kappa"
   ],
   "note": "Refuted (C130_refuted). Proved instead: the exact change of actual agreement (C130_actual), and that actual agreement, pi and kappa never fall and are unchanged exactly if k is 1 or they were 1 (C130_actual, C130_pi, C130_kappa). The annotator bias never rises, by how much it falls is given exactly (C130_bias). If only some coders are listed again, actual agreement may fall (C130_uneven). By segmentation similarity, what is missing from actual agreement and pi falls by a factor depending only on the numbers of coders and names (C130_similarity, C130_similarity_pi), and kappa behaves as above (C130_similarity_kappa)."
  }
 ]
}