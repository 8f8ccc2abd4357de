{
 "claims": [
  {
   "property": "C01",
   "status": "proved",
   "theorems": [
    "Verif.Manager.C01_refresh_keeps_exactly_live"
   ],
   "note": "All histories of create/del/refresh/clear/reserve over GrowableArray-based managers."
  },
  {
   "property": "C02",
   "status": "proved",
   "theorems": [
    "Verif.Manager.C02_no_undefined_behaviour",
    "Verif.Manager.C02_objects_live_iff_existing",
    "Verif.Manager.C02_clear_destroys_everything"
   ],
   "note": "All legal histories: no UB, an object is alive iff the abstract manager says it exists; clear destroys every one."
  },
  {
   "property": "C03",
   "status": "proved",
   "theorems": [
    "Verif.Manager.C03_visible_range_is_stable"
   ],
   "note": ""
  },
  {
   "property": "C04",
   "status": "proved",
   "theorems": [
    "Verif.Manager.C04_reserve_preserves",
    "Verif.Manager.C04_create_always_has_room"
   ],
   "note": ""
  },
  {
   "property": "C05",
   "status": "proved",
   "theorems": [
    "Verif.Recycler.C05_live_objects_never_share",
    "Verif.Recycler.C05_live_objects_never_share_stay",
    "Verif.Recycler.C05_live_objects_never_share_manager_partial",
    "Verif.Recycler.C05_other_types_rejected"
   ],
   "note": "Plain recyclers (no flag) for all types; manager layout for types not over-aligned, false otherwise (see C07). Monomorphic, polymorphic and fixed-list recyclers; object constructors may throw. With objects staying with the monomorphic or fixed-list recycler that made them, moves are unrestricted; when ownership is taken to move along, such recyclers must own nothing when moved."
  },
  {
   "property": "C06",
   "status": "partial",
   "theorems": [
    "Verif.Recycler.C06_all_blocks_freed_stay_partial",
    "Verif.Recycler.C06_all_blocks_freed_partial",
    "Verif.Recycler.C06_mono_move_assign_leaks",
    "Verif.Recycler.C06_mono_move_dangles",
    "Verif.Recycler.C06_fixed_moves_fail",
    "Verif.Recycler.C06_throwing_constructor_leaks"
   ],
   "note": "Proved for polymorphic recyclers with moves and move assignments, and for monomorphic and fixed-list ones with move construction (objects staying with the recycler that made them), for constructors that do not throw. False for throwing constructors (block leaked), move assignment of monomorphic and fixed-list recyclers (leak) and objects taken to move along with them (dangling deleter): negations proved (C06_fixed_moves_fail and others)."
  },
  {
   "property": "C07",
   "status": "partial",
   "theorems": [
    "Verif.Recycler.C07_blocks_big_enough",
    "Verif.Recycler.C07_blocks_big_enough_stay",
    "Verif.Recycler.C07_blocks_big_enough_manager_partial",
    "Verif.Recycler.C07_overaligned_type_breaks"
   ],
   "note": "Proved for the plain recyclers' layout and any types, with unrestricted moves and throwing constructors; for the manager layout only without over-aligned types, negation proved for the rest."
  },
  {
   "property": "C08",
   "status": "proved",
   "theorems": [
    "Verif.Container.C08_behaves_like_finite_map",
    "Verif.Container.C08_write_frame"
   ],
   "note": "std::lower_bound is modelled as libstdc++'s binary search; all histories of operator[] writes/reads and clear."
  },
  {
   "property": "C09",
   "status": "partial",
   "theorems": [
    "Verif.Container.C09_strictly_increasing",
    "Verif.Container.C09_initializer_list_partial",
    "Verif.Container.C09_duplicate_keys_survive"
   ],
   "note": "Proved for all histories and for initializer lists without duplicate keys; negation proved for duplicate keys (the constructor keeps both)."
  },
  {
   "property": "C10",
   "status": "proved",
   "theorems": [
    "Verif.Container.C10_sorted_permutation",
    "Verif.Container.C10_insert_position"
   ],
   "note": "Any strict weak order; std::sort in the constructor is any sorted permutation."
  },
  {
   "property": "C11",
   "status": "proved",
   "theorems": [
    "Verif.Bimap.C11_size",
    "Verif.Bimap.C11_from_list",
    "Verif.Bimap.C11_bimap_is_a_bijection"
   ],
   "note": "every legal history refines a finite bijection, in debug and release builds"
  },
  {
   "property": "C12",
   "status": "partial",
   "theorems": [
    "Verif.Bimap.C12_default_partner_in_use_always",
    "Verif.Bimap.C12_index_inserts_partial",
    "Verif.Bimap.C12_index_other_side_partial",
    "Verif.Bimap.C12_default_partner_in_use",
    "Verif.Bimap.C12_write_through_reference_breaks_order"
   ],
   "note": "holds when the default-constructed partner is not in use; fails in every state where it is (C12_default_partner_in_use_always, C12_default_partner_in_use), and writing through the returned reference breaks the index order"
  },
  {
   "property": "C13",
   "status": "proved",
   "theorems": [
    "Verif.Bimap.C13_fatenum_conversions_inverse"
   ],
   "note": "For all lists of distinct names and values; enumerators with equal values do not compile."
  },
  {
   "property": "C14",
   "status": "proved",
   "theorems": [
    "Verif.Delegate.C14_delegate_calls_each_once_in_order",
    "Verif.Delegate.C14_log_of_a_call",
    "Verif.Delegate.C14_adding_within_capacity",
    "Verif.Delegate.C14_editing_the_running_delegate_is_ub",
    "Verif.Delegate.C14_clearing_while_running_is_ub",
    "Verif.Delegate.C14_adding_when_full_is_ub"
   ],
   "note": "for handlers that do not modify the running delegate; the condition is shown necessary (clearing, or adding to a full delegate, while it runs is undefined behaviour)"
  },
  {
   "property": "C15",
   "status": "partial",
   "theorems": [
    "Verif.Union.C15_union_lifecycle_throwing",
    "Verif.Union.C15_after_a_throw_no_way_out",
    "Verif.Union.C15_union_unchecked",
    "Verif.Union.C15_union_unchecked_reads",
    "Verif.Union.C15_pod_fine_iff",
    "Verif.Union.C15_pod_value",
    "Verif.Union.C15_index_is_position",
    "Verif.Union.C15_union_lifecycle_partial",
    "Verif.Union.C15_union_release_partial",
    "Verif.Union.C15_maybe_lifecycle_partial",
    "Verif.Union.C15_pod_reads_last_stored",
    "Verif.Union.C15_throwing_constructor"
   ],
   "note": "Proved for constructors that do not throw, in checked and unchecked builds; false for throwing constructors: C15_throwing_constructor, C15_after_a_throw_no_way_out; what does hold with throwing constructors is C15_union_lifecycle_throwing"
  },
  {
   "property": "C16",
   "status": "partial",
   "theorems": [
    "Verif.Json.C16_string_comes_back_iff",
    "Verif.Json.C16_read_without_backslash",
    "Verif.Json.C16_quote_never_comes_back",
    "Verif.Json.C16_write_then_read_partial",
    "Verif.Json.C16_plain_values_identical_partial",
    "Verif.Json.C16_quote_not_escaped",
    "Verif.Json.C16_backslash_not_escaped",
    "Verif.Json.C16_large_integer_changes",
    "Verif.Json.C16_longest_integer_not_written"
   ],
   "note": "Proved for all nestings, both writer modes, values whose strings/keys contain no quote or backslash, integers up to 2^53 and reals whose text is read back exactly; which doubles these are, and what becomes of the others, is C146. The rest is false: a string comes back exactly if it has no quote and no backslash (C16_string_comes_back_iff), no value with a quote in a string or key comes back from a text without backslashes, at any depth (C16_quote_never_comes_back); integers above 2^53 change, the most negative long cannot be written."
  },
  {
   "property": "C17",
   "status": "partial",
   "theorems": [
    "Verif.Json.C17_layout_of_any_text_partial",
    "Verif.Json.C17_layout_does_not_matter_partial",
    "Verif.Json.C17_layouts_agree_partial",
    "Verif.Json.C17_leading_space_changes_number"
   ],
   "note": "Proved for every layout of every document, and for every text (well formed or not) ending in a closing character on which the compact reading stops by itself: layouts give the same value or read error in both builds. Missing cases are false: a number as whole document preceded by blanks reads left-over digits; literals ending in an escaped backslash (C19)."
  },
  {
   "property": "C18",
   "status": "partial",
   "theorems": [
    "Verif.Json.C18_layout_safe_partial",
    "Verif.Json.C18_layout_condition_needed",
    "Verif.Json.C18_always_terminates",
    "Verif.Json.C18_no_out_of_range_access_partial",
    "Verif.Json.C18_unterminated_string_or_comment",
    "Verif.Json.C18_empty_text",
    "Verif.Json.C18_left_over_text",
    "Verif.Json.C18_large_number",
    "Verif.Json.C18_not_ascii",
    "Verif.Json.C18_unknown_escape",
    "Verif.Json.C18_accepts_garbage",
    "Verif.Json.C18_error_keeps_value"
   ],
   "note": "Termination proved for every text. No out-of-range access or other undefined behaviour proved for texts without whitespace/comments outside strings, with numbers within long, only characters isdigit is defined for, and (release) closed literals, and for every layout of such a text on which the compact reading does not fail an assertion. Counterexamples proved for the rest, including that the last condition is needed."
  },
  {
   "property": "C19",
   "status": "partial",
   "theorems": [
    "Verif.Json.C19_literal_is_decoded_partial",
    "Verif.Json.C19_literals_are_separated_partial",
    "Verif.Json.C19_scanner_stops_at_quote",
    "Verif.Json.C19_trailing_backslash",
    "Verif.Json.C19_unicode_escape"
   ],
   "note": "Proved for every literal with the eight simple escapes not ending in an escaped backslash; the end-of-literal claim is false for those, and \\u escapes are not supported by the code."
  },
  {
   "property": "C20",
   "status": "partial",
   "theorems": [
    "Verif.Json.C20_key_order",
    "Verif.Json.C20_set_then_get",
    "Verif.Json.C20_sequence_of_writes",
    "Verif.Json.C20_mutable_read",
    "Verif.Json.C20_read_objects_sorted",
    "Verif.Json.C20_last_duplicate_wins_partial"
   ],
   "note": "Set/get, histories of writes and key order proved for all objects; objects read from any text are sorted. Last duplicate wins proved for documents whose literals do not end in an escaped backslash."
  },
  {
   "property": "C21",
   "status": "partial",
   "theorems": [
    "Verif.JsonLife.C21_throw_scalar",
    "Verif.JsonLife.C21_throw_owning",
    "Verif.JsonLife.C21_assignments_partial",
    "Verif.JsonLife.C21_other_assignments_are_undefined",
    "Verif.JsonLife.C21_direct_assignments",
    "Verif.JsonLife.C21_construction",
    "Verif.JsonLife.C21_concrete_failures"
   ],
   "note": "Exact characterisation: any sequence of assignments is carried out with every payload destroyed exactly once, or is undefined; it is undefined exactly if a string, array or object is overwritten by itself, one of its children, or through a converter that assigns to its target (enums, maps, bitsets, archArr/archObj user types). If a converter throws, a value that held a string, array or object can neither be assigned to nor destroyed (C21_throw_owning); others go on as usual (C21_throw_scalar)."
  },
  {
   "property": "C22",
   "status": "partial",
   "theorems": [
    "Verif.Json.C22_equivalence_integers_partial",
    "Verif.Json.C22_equivalence_reals_partial",
    "Verif.Json.C22_no_numbers",
    "Verif.Json.C22_not_symmetric",
    "Verif.Json.C22_not_transitive",
    "Verif.Json.C22_undefined",
    "Verif.Json.C22_not_reflexive"
   ],
   "note": "Equivalence proved for values whose numbers are integers, or all reals without NaN; false when integers and reals mix (symmetry, transitivity, definedness)."
  },
  {
   "property": "C23",
   "status": "partial",
   "theorems": [
    "Verif.JsonConv.C23_char_array_exactly",
    "Verif.JsonConv.C23_round_trip_partial",
    "Verif.JsonConv.C23_array_round_trip_partial",
    "Verif.JsonConv.C23_char_array_partial",
    "Verif.JsonConv.C23_char_array_fails"
   ],
   "note": "Proved for every nesting of basic types, integers, reals, enums, pairs, tuples, vectors, maps and bitsets, and for C arrays of those. For char arrays the exact condition is proved: they come back if and only if the last element is the only terminator, every other case is undefined behaviour (C23_char_array_exactly)."
  },
  {
   "property": "C24",
   "status": "partial",
   "theorems": [
    "Verif.JsonConv.C24_char_array_never_passes",
    "Verif.JsonConv.C24_stored_passes_check_partial",
    "Verif.JsonConv.C24_char_array_fails",
    "Verif.JsonConv.C24_check_sound_partial",
    "Verif.JsonConv.C24_array_check_sound_partial",
    "Verif.JsonConv.C24_enum_and_map_fail",
    "Verif.JsonConv.C24_bitset_fails",
    "Verif.JsonConv.C24_large_real_fails"
   ],
   "note": "Stored values pass their check, except char arrays, of which none ever passes its own check (C24_char_array_never_passes). A successful check implies a successful conversion for types without enums, maps, bitsets and char arrays and values whose reals fit 64-bit integers; counterexamples for each exclusion are proved."
  },
  {
   "property": "C25",
   "status": "partial",
   "theorems": [
    "Verif.JsonConv.C25_map_merge",
    "Verif.JsonConv.C25_target_is_overwritten_partial",
    "Verif.JsonConv.C25_outcome_independent_partial",
    "Verif.JsonConv.C25_map_is_merged"
   ],
   "note": "Extraction overwrites the target for every type but maps; for maps the code merges into what the target held, last pair wins (C25_map_merge), counterexample proved."
  },
  {
   "property": "C26",
   "status": "partial",
   "theorems": [
    "Verif.Base64.C26_decode_inverts_encode_partial",
    "Verif.Base64.C26_long_text_overflows"
   ],
   "note": "Holds when the encoding is shorter than 2^31 characters; for longer encodings the decoder's int length counter overflows (proved for all of them up to 2^32-1 characters)."
  },
  {
   "property": "C27",
   "status": "proved",
   "theorems": [
    "Verif.Base64.C27_encode_is_rfc4648",
    "Verif.Base64.C27_length",
    "Verif.Base64.C27_alphabet"
   ],
   "note": "Equal to a bit-level definition of RFC 4648; length and alphabet separately."
  },
  {
   "property": "C28",
   "status": "proved",
   "theorems": [
    "Verif.Md5.C28_hash_is_rfc1321",
    "Verif.Md5.C28_length"
   ],
   "note": "Against RFC 1321 with the constants defined as floor(2^32 |sin i|) over the reals; buffer bytes that were never written count as undefined behaviour when read."
  },
  {
   "property": "C29",
   "status": "partial",
   "theorems": [
    "Verif.Md5.C29_streaming_partial",
    "Verif.Md5.C29_cuts_agree_partial",
    "Verif.Md5.C29_long_piece_overruns"
   ],
   "note": "Pieces of at most 2^32-64 bytes; a longer piece that does not start at a block boundary reads out of range (proved for all such pieces)."
  },
  {
   "property": "C30",
   "status": "partial",
   "theorems": [
    "Verif.Obf.C30_divide_by_zero",
    "Verif.Obf.C30_plain_variable_partial",
    "Verif.Obf.C30_extreme_values",
    "Verif.Obf.C30_char_partial",
    "Verif.Obf.C30_char_white_space"
   ],
   "note": "All eight integer types toStr specialises, all histories, both build modes: agrees with a plain variable exactly when every stored value lies in the range toStr can convert (C37); outside that range storing overruns toStr's buffer (proved). ObfuscatedValue<char> proved for all non-white-space characters and refuted for white space. Floating point instances are C145."
  },
  {
   "property": "C31",
   "status": "partial",
   "theorems": [
    "Verif.Str.C31_array_with_zero",
    "Verif.Str.C31_array_unique",
    "Verif.Str.C31_cuts_exist_uniquely",
    "Verif.Str.C31_normal_partial",
    "Verif.Str.C31_trailing_partial",
    "Verif.Str.C31_pieces_free_partial",
    "Verif.Str.C31_trailing_concat_partial",
    "Verif.Str.C31_empty_separator",
    "Verif.Str.C31_empty_in_list"
   ],
   "note": "All four separator kinds, both modes, all texts, for non-empty separators and arrays that are C strings; empty separators proved to loop for ever; arrays containing a zero lose text or throw (witnesses)."
  },
  {
   "property": "C32",
   "status": "partial",
   "theorems": [
    "Verif.Str.C32_list_tokens_partial",
    "Verif.Str.C32_list_concat_partial",
    "Verif.Str.C32_single_separator_wrong",
    "Verif.Str.C32_single_char_wrong",
    "Verif.Str.C32_leading_separator_throws"
   ],
   "note": "Proved for lists of non-empty separators; refuted for a single separator (string or character): for every text containing it the call throws or the pieces do not make up the text."
  },
  {
   "property": "C33",
   "status": "proved",
   "theorems": [
    "Verif.Str.C33_left",
    "Verif.Str.C33_right",
    "Verif.Str.C33_both",
    "Verif.Str.C33_left_unique",
    "Verif.Str.C33_right_unique",
    "Verif.Str.C33_idempotent",
    "Verif.Str.C33_strings"
   ],
   "note": "Generic trimL/trimR/trimLR and the string versions."
  },
  {
   "property": "C34",
   "status": "partial",
   "theorems": [
    "Verif.Str.C34_other_objects",
    "Verif.Str.C34_self_never_ends",
    "Verif.Str.C34_by_self",
    "Verif.Str.C34_copy_of_self",
    "Verif.Str.C34_replaceAll_partial",
    "Verif.Str.C34_disjoint_partial",
    "Verif.Str.C34_shorter_terminates_partial",
    "Verif.Str.C34_none_left",
    "Verif.Str.C34_never_ends",
    "Verif.Str.C34_replaces_again"
   ],
   "note": "Proved when no occurrence can touch an inserted replacement (e.g. no common character); termination proved for shorter replacements; no occurrence left whenever it ends; non-termination proved for every replacement containing the replaced text; witnesses that text is replaced again. Arguments that are the string itself (references): replaceAll(s, s, t) never returns; replaceAll(s, a, s) returns iff a does not occur."
  },
  {
   "property": "C35",
   "status": "proved",
   "theorems": [
    "Verif.Str.C35_prefix_suffix",
    "Verif.Str.C35_chars",
    "Verif.Str.C35_char_count"
   ],
   "note": ""
  },
  {
   "property": "C36",
   "status": "proved",
   "theorems": [
    "Verif.Str.C36_least_edits",
    "Verif.Str.C36_metric"
   ],
   "note": ""
  },
  {
   "property": "C37",
   "status": "partial",
   "theorems": [
    "Verif.IntStr.C37_toStr_partial",
    "Verif.IntStr.C37_text_parses_back",
    "Verif.IntStr.C37_independent_of_earlier_calls",
    "Verif.IntStr.C37_every_type_overruns"
   ],
   "note": "False of the code for large values: the conversion buffer has digits10 characters. The theorem gives the exact outcome for every value of the eight integer types: decimal notation inside the safe range, out-of-buffer write outside it (C37_every_type_overruns gives a witness for each type). Other types go through a stream and are not modelled."
  },
  {
   "property": "C38",
   "status": "proved",
   "theorems": [
    "Verif.Path.C38_canonical",
    "Verif.Path.C38_ends"
   ],
   "note": "Result text, idempotence and both ends for every text and file system (ends: texts without NUL, stat of the empty name fails)."
  },
  {
   "property": "C39",
   "status": "partial",
   "theorems": [
    "Verif.Path.C39_parent_and_name_partial",
    "Verif.Path.C39_root_entry",
    "Verif.Path.C39_empty_parent",
    "Verif.Path.C39_name_and_extension",
    "Verif.Path.C39_all_extensions_partial",
    "Verif.Path.C39_two_extensions",
    "Verif.Path.C39_folder_name_partial",
    "Verif.Path.C39_single_folder_name",
    "Verif.Path.C39_root_folder_name"
   ],
   "note": "Parent/name/extension decompositions with exact conditions; the property is false for /name, for names with two extensions, for single-name folders, and undefined for the empty path and /."
  },
  {
   "property": "C40",
   "status": "partial",
   "theorems": [
    "Verif.Path.C40_single_partial",
    "Verif.Path.C40_dotted_folder",
    "Verif.Path.C40_recurse_flat_partial",
    "Verif.Path.C40_nested_never_reported",
    "Verif.Path.C40_endless",
    "Verif.Path.C40_not_a_folder",
    "Verif.Path.C40_nested_case"
   ],
   "note": "Exact result of single-level scans and of recursive scans with empty subfolders; for deeper trees the property is false (entries of subfolders are never reported with their path, scans can be endless, folders with a trailing dot are skipped), which is proved in general."
  },
  {
   "property": "C41",
   "status": "proved",
   "theorems": [
    "Verif.Num.C41_getMod",
    "Verif.Num.C41_getMod_half",
    "Verif.Num.C41_getMod_signed_overflow",
    "Verif.Num.C41_getMod_unsigned_overflow",
    "Verif.Num.C41_getMod_mixed_sign",
    "Verif.Num.C41_getModRange",
    "Verif.Num.C41_getModRange_unsigned",
    "Verif.Num.C41_getModRange_mixed_sign"
   ],
   "note": "Both overloads for arbitrary mixtures of integer types, under the stated no-overflow conditions; outside them: signed overflow is UB, unsigned overflow always gives a wrong result, mixed signedness converts first (witnesses)."
  },
  {
   "property": "C42",
   "status": "partial",
   "theorems": [
    "Verif.Num.C42_nonneg_partial",
    "Verif.Num.C42_negative",
    "Verif.Num.C42_negative_witness",
    "Verif.Num.C42_empty"
   ],
   "note": "Holds for non-negative indices; for negative indices the position is that of idx + 2^64, right iff the size divides 2^64 (proved negation, witness)."
  },
  {
   "property": "C43",
   "status": "partial",
   "theorems": [
    "Verif.Num.C43_2D_coordinates_partial",
    "Verif.Num.C43_2D_index_partial",
    "Verif.Num.C43_2D_zero_debug",
    "Verif.Num.C43_3D_bijection",
    "Verif.Num.C43_3D_back",
    "Verif.Num.C43_3D_witness"
   ],
   "note": "1D index of 3D (and so 2D) cells is a bijection; 2D round trips hold except index 0 in debug builds (assert); get3DIdxFrom1D returns y + z*rows instead of x (proved negation)."
  },
  {
   "property": "C44",
   "status": "proved",
   "theorems": [
    "Verif.Num.C44_clamp_order",
    "Verif.Num.C44_one_sided_order",
    "Verif.Num.C44_inverted",
    "Verif.Num.C44_clamp",
    "Verif.Num.C44_clamp_same",
    "Verif.Num.C44_getClamped",
    "Verif.Num.C44_one_sided",
    "Verif.Num.C44_mixed_sign"
   ],
   "note": "Any linear order; all integer type mixtures whose conversions preserve the values; witness of what mixed signedness does."
  },
  {
   "property": "C45",
   "status": "proved",
   "theorems": [
    "Verif.CmdLine.C45_runs_the_named",
    "Verif.CmdLine.C45_found",
    "Verif.CmdLine.C45_unknown"
   ],
   "note": "The named command (first registered) runs, others are untouched; an unknown name is rejected with the first name of least Levenshtein distance."
  },
  {
   "property": "C46",
   "status": "proved",
   "theorems": [
    "Verif.CmdLine.C46_runs",
    "Verif.CmdLine.C46_too_few",
    "Verif.CmdLine.C46_too_many",
    "Verif.CmdLine.C46_too_many_throws",
    "Verif.CmdLine.C46_accepts",
    "Verif.CmdLine.C46_greedy_witness",
    "Verif.CmdLine.C46_negative_witness"
   ],
   "note": "Order, counts, no loss or duplication, too few / too many; exact acceptance condition (packs are filled greedily from the left, see C46_greedy_witness; a word starting with - is always a flag, see C46_negative_witness)."
  },
  {
   "property": "C47",
   "status": "partial",
   "theorems": [
    "Verif.CmdLine.C47_flags",
    "Verif.CmdLine.C47_positional",
    "Verif.CmdLine.C47_swapped_witness",
    "Verif.CmdLine.C47_unknown_witness",
    "Verif.CmdLine.C47_in_order_partial"
   ],
   "note": "Plain flags are bound by name and unknown ones rejected. Values of flags are bound by position and their names are not checked: refuted by C47_swapped_witness and C47_unknown_witness; holds when they are entered in order of declaration."
  },
  {
   "property": "C48",
   "status": "partial",
   "theorems": [
    "Verif.CmdLine.C48_unknown_flag",
    "Verif.CmdLine.C48_too_many",
    "Verif.CmdLine.C48_flag_witness",
    "Verif.CmdLine.C48_pack_witness",
    "Verif.CmdLine.C48_value_witness",
    "Verif.CmdLine.C48_early_partial",
    "Verif.CmdLine.C48_frame_partial",
    "Verif.CmdLine.C48_no_packs_partial"
   ],
   "note": "Refuted in general: for every command and every input that is right except for an unknown flag, the arguments, optional arguments and packs have received their words and the flags before it are on (C48_unknown_flag); with too many words every pack has been filled (C48_too_many); literal witnesses incl. an unreadable value. Proved for wrong command names and wrong counts, for too many words without packs, and for all other commands and all declarations."
  },
  {
   "property": "C49",
   "status": "partial",
   "theorems": [
    "Verif.Timeline.C49_order",
    "Verif.Timeline.C49_update",
    "Verif.Timeline.C49_finishes",
    "Verif.Timeline.C49_stops_at_finished_wait"
   ],
   "note": "Order, once each, one-update behaviour and termination proved for any arithmetic; missing: a wait that ends also ends the update (C49_stops_at_finished_wait), so actions behind it run one update later than the statement says."
  },
  {
   "property": "C50",
   "status": "partial",
   "theorems": [
    "Verif.Timeline.C50_waits",
    "Verif.Timeline.C50_ends",
    "Verif.Timeline.C50_wait_while",
    "Verif.Timeline.C50_wait_until",
    "Verif.Timeline.C50_time_partial",
    "Verif.Timeline.C50_overshoot_lost",
    "Verif.Timeline.C50_two_waits_witness"
   ],
   "note": "A wait ends in the first update in which the frame times reach it (exact arithmetic; running differences for any arithmetic; the arithmetic of float is C147). The overshoot is lost: C50_overshoot_lost, C50_two_waits_witness."
  },
  {
   "property": "C51",
   "status": "proved",
   "theorems": [
    "Verif.Timeline.C51_counts",
    "Verif.Timeline.C51_jump_target",
    "Verif.Timeline.C51_loop",
    "Verif.Timeline.C51_terminates",
    "Verif.Timeline.C51_reset",
    "Verif.Timeline.C51_nested_witness"
   ],
   "note": "Counts along any run, target, loop order with waits anywhere, termination, reset. C51_nested_witness records that counts are not renewed per pass of an outer loop."
  },
  {
   "property": "C52",
   "status": "partial",
   "theorems": [
    "Verif.Timeline.C52_insert_partial",
    "Verif.Timeline.C52_append",
    "Verif.Timeline.C52_insert_null",
    "Verif.Timeline.C52_append_finished",
    "Verif.Timeline.C52_insert_before",
    "Verif.Timeline.C52_runs_twice_witness"
   ],
   "note": "Proved for append, for insertion behind the current command and for timelines with nothing left. Insertion at or before the current position changes the current command: C52_insert_before, C52_runs_twice_witness; a finished timeline needs start()."
  },
  {
   "property": "C53",
   "status": "proved",
   "theorems": [
    "Verif.Timeline.C53_update",
    "Verif.Timeline.C53_update_ok",
    "Verif.Timeline.C53_create",
    "Verif.Timeline.C53_restart_too_late_witness"
   ],
   "note": "Over the memory manager model; actions that use the manager are not modelled."
  },
  {
   "property": "C54",
   "status": "partial",
   "theorems": [
    "Verif.Ticker.C54_state",
    "Verif.Ticker.C54_tick_iff",
    "Verif.Ticker.C54_running",
    "Verif.Ticker.C54_paused_partial",
    "Verif.Ticker.C54_paused_ticks",
    "Verif.Ticker.C54_overshoot_dropped"
   ],
   "note": "C54_state, C54_tick_iff and C54_running over exact arithmetic (the arithmetic of float is C147); overshoot is dropped at a tick, and a paused ticker can still tick when its target is lowered (C54_paused_ticks)."
  },
  {
   "property": "C55",
   "status": "partial",
   "theorems": [
    "Verif.Tmpl.C55_trailing_brace",
    "Verif.Tmpl.C55_unclosed",
    "Verif.Tmpl.C55_unclosed_section",
    "Verif.Tmpl.C55_last_brace",
    "Verif.Tmpl.C55_expansion_partial",
    "Verif.Tmpl.C55_meaning_exists",
    "Verif.Tmpl.C55_meaning_unique",
    "Verif.Tmpl.C55_plain_partial",
    "Verif.Tmpl.C55_key_partial",
    "Verif.Tmpl.C55_section_partial",
    "Verif.Tmpl.C55_escape_partial",
    "Verif.Tmpl.C55_trailing_brace_witness",
    "Verif.Tmpl.C55_prefix_witness",
    "Verif.Tmpl.C55_only_contents_witness",
    "Verif.Tmpl.C55_unclosed_witness",
    "Verif.Tmpl.C55_last_brace_witness",
    "Verif.Tmpl.C55_value_root_witness"
   ],
   "note": "Proved: the text of every well-formed template (any nesting of texts, escaped braces, tags, separators and sections, values that are templates themselves) expands to its meaning, which exists and is unique for values without tags; instances for one tag, for a section with any number of dictionaries and a separator, and for escaped braces. Missing, because false in the code: a result that ends in an escaped brace (always written twice, C55_trailing_brace), sections whose key extends the key of a section around them, unknown sections under onlyCnt (witnesses). Outside the grammar: a tag or a section that is not closed, after any text, always reads beyond the end (C55_unclosed, C55_unclosed_section); a text that ends in a brace stops a debug build (C55_last_brace)."
  },
  {
   "property": "C56",
   "status": "partial",
   "theorems": [
    "Verif.Tmpl.C56_goes_round",
    "Verif.Tmpl.C56_own_key",
    "Verif.Tmpl.C56_ends_iff",
    "Verif.Tmpl.C56_fuel",
    "Verif.Tmpl.C56_diverges",
    "Verif.Tmpl.C56_terminates_partial",
    "Verif.Tmpl.C56_plain_partial",
    "Verif.Tmpl.C56_pass_terminates",
    "Verif.Tmpl.C56_nothing_found"
   ],
   "note": "False for values that go round (C56_goes_round, for every amount of fuel). Exact for well-formed templates and values: the expansion ends exactly if the template has a meaning, and goes on for ever exactly if it uses a value that goes round (C56_ends_iff; not under onlyCnt). Also termination when the keys in values have smaller ranks, under all settings; a single pass terminates for every text."
  },
  {
   "property": "C57",
   "status": "partial",
   "theorems": [
    "Verif.Tmpl.C57_set_key",
    "Verif.Tmpl.C57_add_section",
    "Verif.Tmpl.C57_innermost_partial",
    "Verif.Tmpl.C57_unknown_key_partial",
    "Verif.Tmpl.C57_unknown_section_partial",
    "Verif.Tmpl.C57_parent_witness"
   ],
   "note": "Proved for any nesting of sections each defined in the dictionary of the section around it, with values without tags, and for unknown keys and sections under all three settings. Missing: a section defined further out does not see the sections around its tag (C57_parent_witness)."
  },
  {
   "property": "C58",
   "status": "proved",
   "theorems": [
    "Verif.Args.C58_groups",
    "Verif.Args.C58_groups_unique",
    "Verif.Args.C58_example"
   ],
   "note": "forArgs compiles exactly when the arity is positive and divides the number of arguments, and then makes one call per consecutive group, in order; a call that throws is the last."
  },
  {
   "property": "C59",
   "status": "partial",
   "theorems": [
    "Verif.Mpl.C59_ends",
    "Verif.Mpl.C59_insert_partial",
    "Verif.Mpl.C59_insert_empty",
    "Verif.Mpl.C59_remove",
    "Verif.Mpl.C59_insert_remove",
    "Verif.Mpl.C59_access",
    "Verif.Mpl.C59_va",
    "Verif.Mpl.C59_filter",
    "Verif.Mpl.C59_search",
    "Verif.Mpl.C59_all_partial",
    "Verif.Mpl.C59_all_empty",
    "Verif.Mpl.C59_unique",
    "Verif.Mpl.C59_unique_unique",
    "Verif.Mpl.C59_is_unique",
    "Verif.Mpl.C59_slice_partial",
    "Verif.Mpl.C59_slice_negative",
    "Verif.Mpl.C59_idxs",
    "Verif.Mpl.C59_idxs_of",
    "Verif.Mpl.C59_replace_seq_partial",
    "Verif.Mpl.C59_replace_seq_overlap",
    "Verif.Mpl.C59_replace",
    "Verif.Mpl.C59_replaced_unique"
   ],
   "note": "All operations are the list functions, except: Insert on an empty list ignores the index, all is false on an empty list, FilterIdx of an empty list has another signature, negative Slice indices count as the end, ReplaceAllOfSeq does not compile with overlapping occurrences (proved)."
  },
  {
   "property": "C60",
   "status": "partial",
   "theorems": [
    "Verif.Easing.C60_midpoint_partial",
    "Verif.Easing.C60_cubic_jump",
    "Verif.Easing.C60_circ_jump",
    "Verif.Easing.C60_zero_duration",
    "Verif.Easing.C60_zero_duration_release",
    "Verif.Easing.C60_start_partial",
    "Verif.Easing.C60_bounce_negative",
    "Verif.Easing.C60_end_partial",
    "Verif.Easing.C60_cubic_end",
    "Verif.Easing.C60_sine_error"
   ],
   "note": "Over the reals. Exceptions, all proved: Cubic in-out ends at start + 2 and jumps by 2 at the middle; Bounce in-out is wrong for negative durations; Circ in-out is continuous only if the compiler does the modification first (the expression is unsequenced); Sine ends within |change| * |error of pi| / 2."
  },
  {
   "property": "C61",
   "status": "partial",
   "theorems": [
    "Verif.Easing.C61_map_partial",
    "Verif.Easing.C61_eased_partial",
    "Verif.Easing.C61_wrong",
    "Verif.Easing.C61_wrong_witness"
   ],
   "note": "Right only for input ranges that start at 0; otherwise both end points are wrong, proved for Linear and every range."
  },
  {
   "property": "C62",
   "status": "partial",
   "theorems": [
    "Verif.Stringify.C62_shown_linux",
    "Verif.Stringify.C62_text_partial",
    "Verif.Stringify.C62_toStr_partial",
    "Verif.Stringify.C62_text_linux",
    "Verif.Stringify.C62_toStr_linux",
    "Verif.Stringify.C62_linux_wrong",
    "Verif.Stringify.C62_linux_witness"
   ],
   "note": "Exact where the console has no formatting (C62_text_partial, C62_toStr_partial). On Linux the property is false: every element is enclosed in two reset sequences even without formatting (C62_text_linux, C62_linux_wrong); a terminal still shows the promised text (C62_shown_linux)."
  },
  {
   "property": "C63",
   "status": "proved",
   "theorems": [
    "Verif.Recycler.C63_released_block_is_reused"
   ],
   "note": ""
  },
  {
   "property": "C64",
   "status": "proved",
   "theorems": [
    "Verif.Container.C64_equality_is_extensional"
   ],
   "note": ""
  },
  {
   "property": "C65",
   "status": "proved",
   "theorems": [
    "Verif.Base64.C65_decode_any_text",
    "Verif.Base64.C65_rest_ignored"
   ],
   "note": "Bit-level definition of decoding in Spec.lean."
  },
  {
   "property": "C66",
   "status": "proved",
   "theorems": [
    "Verif.Str.C66_replace_self",
    "Verif.Str.C66_replace_by_self",
    "Verif.Str.C66_replace_first",
    "Verif.Str.C66_first_exists"
   ],
   "note": ""
  },
  {
   "property": "C67",
   "status": "proved",
   "theorems": [
    "Verif.Num.C67_sign"
   ],
   "note": ""
  },
  {
   "property": "C68",
   "status": "proved",
   "theorems": [
    "Verif.Num.C68_getMap"
   ],
   "note": "Integer instances of one type not narrower than int, without overflow."
  },
  {
   "property": "C69",
   "status": "partial",
   "theorems": [
    "Verif.Path.C69_less_partial",
    "Verif.Path.C69_equality_never_returns"
   ],
   "note": "The order is proved; == and != never return, which is proved."
  },
  {
   "property": "C70",
   "status": "partial",
   "theorems": [
    "Verif.Path.C70_case_partial",
    "Verif.Path.C70_not_ascii",
    "Verif.Path.C70_has_extension_partial"
   ],
   "note": "Proved for ASCII texts; undefined behaviour for all others."
  },
  {
   "property": "C71",
   "status": "partial",
   "theorems": [
    "Verif.Path.C71_expand_partial",
    "Verif.Path.C71_endless"
   ],
   "note": "Proved when HOME has no ~; otherwise the function never returns, which is proved."
  },
  {
   "property": "C72",
   "status": "partial",
   "theorems": [
    "Verif.Timeline.C72_stop",
    "Verif.Timeline.C72_jump_off_by_one",
    "Verif.Timeline.C72_jump_outside",
    "Verif.Timeline.C72_reset_skips_first"
   ],
   "note": "stop as stated; jumps and resets from within an action skip one command (C72_jump_off_by_one, C72_reset_skips_first)."
  },
  {
   "property": "C73",
   "status": "partial",
   "theorems": [
    "Verif.CmdLine.C73_never_reset",
    "Verif.CmdLine.C73_again_partial",
    "Verif.CmdLine.C73_required_partial",
    "Verif.CmdLine.C73_stays_witness"
   ],
   "note": "Refuted, and always so: nothing that was entered is ever taken back, by accepted or rejected lines (C73_never_reset). Proved for required arguments and required flag values, and repetition of the same words without packs."
  },
  {
   "property": "C74",
   "status": "partial",
   "theorems": [
    "Verif.CmdLine.C74_ends",
    "Verif.CmdLine.C74_dies",
    "Verif.CmdLine.C74_throws_partial",
    "Verif.CmdLine.C74_float_witness"
   ],
   "note": "Refuted for int and float arguments: the conversions are noexcept, so a malformed or too large number terminates the program (C74_dies), and so does a float below the normal ones that is not exact. Nothing else ends it for ASCII words (C74_ends)."
  },
  {
   "property": "C75",
   "status": "partial",
   "theorems": [
    "Verif.CmdLine.C75_one_value",
    "Verif.CmdLine.C75_decimal",
    "Verif.CmdLine.C75_garbage_witness",
    "Verif.CmdLine.C75_bool",
    "Verif.CmdLine.C75_float",
    "Verif.CmdLine.C75_float_example",
    "Verif.CmdLine.C75_float_refused",
    "Verif.CmdLine.C75_held"
   ],
   "note": "Strings, bools, decimal ints and floats (to the nearest, ties to even, as in glibc's strtof; exact bounds of what is refused) are read as written, in one way only. Refuted in one part: 12abc is accepted as 12."
  },
  {
   "property": "C76",
   "status": "partial",
   "theorems": [
    "Verif.Args.C76_data_partial",
    "Verif.Args.C76_for_partial",
    "Verif.Args.C76_rows_unique",
    "Verif.Args.C76_empty_tuple",
    "Verif.Args.C76_example"
   ],
   "note": "Proved for tuples that are not empty; a call with an empty tuple does not compile (proved)."
  },
  {
   "property": "C77",
   "status": "partial",
   "theorems": [
    "Verif.Args.C77_explode_partial",
    "Verif.Args.C77_explode_throw",
    "Verif.Args.C77_idx_of",
    "Verif.Args.C77_repeat",
    "Verif.Args.C77_example"
   ],
   "note": "explode is right unless the function throws: for a non-empty tuple the exception ends the program (proved). getTplIdxOf and TplRepeat are proved in full."
  },
  {
   "property": "C78",
   "status": "proved",
   "theorems": [
    "Verif.Args.C78_min",
    "Verif.Args.C78_max",
    "Verif.Args.C78_example"
   ],
   "note": "For any number of arguments (at least one). The overloads with template arguments instead of function arguments do not compile with three or more and are not modelled."
  },
  {
   "property": "C79",
   "status": "proved",
   "theorems": [
    "Verif.Easing.C79_mirror"
   ],
   "note": "Over the reals, with the exact pi for Sine and Elastic."
  },
  {
   "property": "C80",
   "status": "partial",
   "theorems": [
    "Verif.Easing.C80_halves_partial",
    "Verif.Easing.C80_cubic"
   ],
   "note": "Proved for Linear, Sine, Bounce (positive durations), Circ, Expo, Quad, Quart, Quint; Cubic's second half is wrong (proved); Back and Elastic use other constants by design."
  },
  {
   "property": "C81",
   "status": "partial",
   "theorems": [
    "Verif.Easing.C81_between",
    "Verif.Easing.C81_between_inout_partial",
    "Verif.Easing.C81_cubic_witness"
   ],
   "note": "Proved for all In and Out functions; for InOut except Cubic, which leaves the range (proved), and Circ if the left operand is read first."
  },
  {
   "property": "C82",
   "status": "proved",
   "theorems": [
    "Verif.Stringify.C82_shown",
    "Verif.Stringify.C82_element",
    "Verif.Stringify.C82_witness"
   ],
   "note": "Text drawn by a model of an ANSI terminal equals an independent specification of characters with attributes."
  },
  {
   "property": "C83",
   "status": "partial",
   "theorems": [
    "Verif.Stringify.C83_null_pointer",
    "Verif.Stringify.C83_null_pointer_wrong",
    "Verif.Stringify.C83_pointer_partial"
   ],
   "note": "Addresses are in brackets; null pointers are printed as the address of a string literal, so the second half is false (C83_null_pointer_wrong)."
  },
  {
   "property": "C84",
   "status": "partial",
   "theorems": [
    "Verif.Log.C84_log_partial",
    "Verif.Log.C84_log_linux",
    "Verif.Log.C84_log_linux_wrong"
   ],
   "note": "Exact where the console has no formatting; on Linux the elements of containers are enclosed in reset sequences also in the log (C84_log_linux_wrong)."
  },
  {
   "property": "C85",
   "status": "partial",
   "theorems": [
    "Verif.Log.C85_suppressed_partial",
    "Verif.Log.C85_endl",
    "Verif.Log.C85_manip",
    "Verif.Log.C85_resume"
   ],
   "note": "Titles and values are suppressed; line breaks and console manipulators are not (C85_endl, C85_manip), so the property is false as stated."
  },
  {
   "property": "C86",
   "status": "proved",
   "theorems": [
    "Verif.Log.C86_console",
    "Verif.Log.C86_distinct",
    "Verif.Log.C86_witness"
   ],
   "note": "Shown through the terminal model, for every list of lines."
  },
  {
   "property": "C87",
   "status": "partial",
   "theorems": [
    "Verif.Angle.Fp.C87_ieee_deg",
    "Verif.Angle.Fp.C87_ieee_rad",
    "Verif.Angle.Fp.C87_ieee_special",
    "Verif.Angle.Fp.C87_ieee_full_turn",
    "Verif.Angle.Fp.C87_ieee_full_turn_example",
    "Verif.Angle.C87_error",
    "Verif.Angle.C87_deg",
    "Verif.Angle.C87_rad",
    "Verif.Angle.C87_deg_rounded_partial",
    "Verif.Angle.C87_rad_rounded_partial",
    "Verif.Angle.C87_deg_full_turn",
    "Verif.Angle.C87_idempotent",
    "Verif.Angle.C87_fails_rounded"
   ],
   "note": "Proved in exact arithmetic over the reals, also idempotence. With any monotone odd rounding the result is the true value or its rounding and is in [0, full turn]; with relative error u it is within u times the true value (C87_error). In IEEE 754 arithmetic (any binary format) every finite angle gives the number nearest to the true wrapped angle, and infinities and NaN give NaN (C87_ieee_deg, C87_ieee_rad, C87_ieee_special). The property as stated fails: the full turn itself is returned for tiny negative angles (C87_deg_full_turn, C87_fails_rounded, C87_ieee_full_turn)."
  },
  {
   "property": "C88",
   "status": "partial",
   "theorems": [
    "Verif.Angle.Fp.C88_ieee",
    "Verif.Angle.Fp.C88_ieee_far",
    "Verif.Angle.Fp.C88_ieee_wide",
    "Verif.Angle.Fp.C88_ieee_example",
    "Verif.Angle.C88_error",
    "Verif.Angle.C88_exact",
    "Verif.Angle.C88_fixed",
    "Verif.Angle.C88_empty"
   ],
   "note": "Proved in exact arithmetic; with rounding, C88_error bounds the distance of the result from such a value and from the range; C88_ieee does so in IEEE 754 arithmetic if nothing overflows. If the distance of the value from the range overflows, the result is NaN (C88_ieee_far); if the length of the range overflows, values are not cycled (C88_ieee_wide). An empty range gives NaN (C88_empty)."
  },
  {
   "property": "C89",
   "status": "partial",
   "theorems": [
    "Verif.Angle.Fp.C89_ieee_deg",
    "Verif.Angle.Fp.C89_ieee_rad",
    "Verif.Angle.Fp.C89_ieee_nan",
    "Verif.Angle.Fp.C89_ieee_nan_example",
    "Verif.Angle.C89_deg_error",
    "Verif.Angle.C89_rad_error",
    "Verif.Angle.C89_rad_error_example",
    "Verif.Angle.C89_deg",
    "Verif.Angle.C89_rad",
    "Verif.Angle.C89_dist_facts",
    "Verif.Angle.C89_deg_rounded_partial"
   ],
   "note": "Proved in exact arithmetic (radians with respect to twice the constant pi of the file); for any rounding the degrees result is in [0, 180] and symmetric; C89_deg_error and C89_rad_error bound the error. In IEEE 754 arithmetic: the same for all finite angles whose difference does not overflow (C89_ieee_deg, C89_ieee_rad), NaN in all other cases (C89_ieee_nan)."
  },
  {
   "property": "C90",
   "status": "partial",
   "theorems": [
    "Verif.Angle.Fp.C90_ieee",
    "Verif.Angle.Fp.C90_ieee_special",
    "Verif.Angle.Fp.C90_ieee_example",
    "Verif.Angle.C90_deg_error",
    "Verif.Angle.C90_deg",
    "Verif.Angle.C90_reaches",
    "Verif.Angle.C90_rad_fails",
    "Verif.Angle.C90_rad_partial"
   ],
   "note": "getRotatedDeg proved in exact arithmetic, including repeated rotation; with rounding, C90_deg_error: stops only near the target, else comes closer by the speed up to the stated error; C90_ieee: the same in IEEE 754 arithmetic; with angles that are not finite it returns stop (C90_ieee_special). getRotatedRad violates the property: it takes the speed in degrees and returns degrees (C90_rad_fails); C90_rad_partial is what holds."
  },
  {
   "property": "C91",
   "status": "partial",
   "theorems": [
    "Verif.Angle.Fp.C91_ieee_manhattan",
    "Verif.Angle.Fp.C91_ieee_chebyshev",
    "Verif.Angle.Fp.C91_ieee_squared_partial",
    "Verif.Angle.Fp.C91_ieee_euclid_partial",
    "Verif.Angle.Fp.C91_ieee_underflow",
    "Verif.Angle.Fp.C91_ieee_overflow",
    "Verif.Angle.Fp.C91_ieee_example",
    "Verif.Angle.C91_error",
    "Verif.Angle.C91_zero_rounded",
    "Verif.Angle.C91_triangle_rounded",
    "Verif.Angle.C91_manhattan",
    "Verif.Angle.C91_chebyshev",
    "Verif.Angle.C91_euclidean",
    "Verif.Angle.C91_squared",
    "Verif.Angle.C91_axis",
    "Verif.Angle.C91_order",
    "Verif.Angle.C91_rounded_partial"
   ],
   "note": "Proved in exact arithmetic; for any rounding: not negative, symmetric, zero between a point and itself; with relative error u: within a few factors 1 + u and 1 - u of the exact distance, zero only for equal points, triangle inequality up to such factors. In IEEE 754 arithmetic: Manhattan and Chebyshev distances for all finite points; the Euclidean ones if the squares neither overflow nor underflow, and false otherwise: 0 for distinct points (C91_ieee_underflow), infinite for finite distances (C91_ieee_overflow). Integer instances: see C136."
  },
  {
   "property": "C92",
   "status": "partial",
   "theorems": [
    "Verif.Angle.Fp.C92_ieee_lerp",
    "Verif.Angle.Fp.C92_ieee_lerp_overflow",
    "Verif.Angle.Fp.C92_ieee_map_partial",
    "Verif.Angle.Fp.C92_ieee_map_ends",
    "Verif.Angle.Fp.C92_ieee_example",
    "Verif.Angle.C92_lerp_error",
    "Verif.Angle.C92_map_error",
    "Verif.Angle.C92_lerp",
    "Verif.Angle.C92_lerp_assert",
    "Verif.Angle.C92_lerp_rounded_partial",
    "Verif.Angle.C92_map",
    "Verif.Angle.C92_map_empty",
    "Verif.Angle.C92_map_rounded_partial"
   ],
   "note": "Proved in exact arithmetic; for any rounding: lerp is exact at weight 0, monotone in the weight and on the right side of the first value, and map is exact at the lower end; C92_lerp_error and C92_map_error bound the errors. In IEEE 754 arithmetic: C92_ieee_lerp and C92_ieee_map_partial where nothing overflows; false for large numbers (C92_ieee_lerp_overflow: NaN at weight 0) and at both ends of the numbers (C92_ieee_map_ends)."
  },
  {
   "property": "C93",
   "status": "partial",
   "theorems": [
    "Verif.Angle.Fp.C93_ieee",
    "Verif.Angle.Fp.C93_ieee_example",
    "Verif.Angle.C93_units_rounded",
    "Verif.Angle.C93_error_rounded",
    "Verif.Angle.C93_towards_rounded",
    "Verif.Angle.C93_towards_deg_rounded",
    "Verif.Angle.C93_units",
    "Verif.Angle.C93_half_turn",
    "Verif.Angle.C93_error",
    "Verif.Angle.C93_towards_rad",
    "Verif.Angle.C93_towards_deg"
   ],
   "note": "Proved in exact arithmetic, for the ratio pi / 180 exactly where pi is mentioned; C93_error bounds the effect of the rounded constant. With rounding the equations become bounds: C93_units_rounded and C93_error_rounded for the units, C93_towards_rounded and C93_towards_deg_rounded for the directions (the point is reached up to about 8.2 rounding errors times the distance); in IEEE 754 arithmetic C93_ieee, with underflow and overflow. Missing: the directions when the differences underflow or overflow."
  },
  {
   "property": "C94",
   "status": "partial",
   "theorems": [
    "Verif.Pcg.C94_sixteen_bits",
    "Verif.Pcg.C94_sixteen_bits_safe_partial",
    "Verif.Pcg.C94_advance",
    "Verif.Pcg.C94_discard",
    "Verif.Pcg.C94_add"
   ],
   "note": "For state types of every width but 16 bits, with arithmetic modulo 2^w (C159_sizes). With 16-bit states the code multiplies promoted int values: advance and discard by 128 or more overflow for every stream and state (C94_sixteen_bits); exactly the distances up to 3 are safe for all (C94_sixteen_bits_safe_partial)."
  },
  {
   "property": "C95",
   "status": "proved",
   "theorems": [
    "Verif.Pcg.C95_period",
    "Verif.Pcg.C95_period_pow2",
    "Verif.Pcg.C95_init",
    "Verif.Pcg.C95_all_states",
    "Verif.Pcg.C95_wrapped",
    "Verif.Pcg.C95_engines",
    "Verif.Pcg.C95_streams"
   ],
   "note": "For state types of every width; C95_engines shows that the parameters of all engines of the library qualify. Engines restored from text with a state that is not of the engine (operator>> does not check) are not covered."
  },
  {
   "property": "C96",
   "status": "partial",
   "theorems": [
    "Verif.Pcg.C96_sixteen_bits_backstep",
    "Verif.Pcg.C96_sixteen_bits_minus",
    "Verif.Pcg.C96_sixteen_bits",
    "Verif.Pcg.C96_minus",
    "Verif.Pcg.C96_minus_advance",
    "Verif.Pcg.C96_backstep"
   ],
   "note": "For two engines with the same parameters; the types of the engines guarantee this except for the stream of a specific_stream engine, which operator- does not compare. With 16-bit states backstep and differences of 128 or more overflow int (C96_sixteen_bits_backstep, C96_sixteen_bits)."
  },
  {
   "property": "C97",
   "status": "proved",
   "theorems": [
    "Verif.Pcg.C97_first",
    "Verif.Pcg.C97_range",
    "Verif.Pcg.C97_zero",
    "Verif.Pcg.C97_uniform",
    "Verif.Pcg.C97_reject",
    "Verif.Pcg.C97_terminates",
    "Verif.Pcg.C97_engine",
    "Verif.Pcg.C97_engine_once"
   ],
   "note": "For any source of random numbers; termination for engines whose results are half as wide as the state (C97_engine) or as wide (C97_engine_once). Draws from the 16-bit rxs_m_xs engines may be undefined by themselves (C100)."
  },
  {
   "property": "C98",
   "status": "proved",
   "theorems": [
    "Verif.Pcg.C98_perm",
    "Verif.Pcg.C98_defined",
    "Verif.Pcg.C98_terminates",
    "Verif.Pcg.C98_long",
    "Verif.Pcg.C98_truncated",
    "Verif.Pcg.C98_uniform",
    "Verif.Pcg.C98_count",
    "Verif.Pcg.C98_engine",
    "Verif.Pcg.C98_engine_once"
   ],
   "note": "For fewer than 2^x elements, as stated; C98_long proves that longer ranges are never shuffled (the bound is truncated, finally to zero: C98_truncated). Termination for engines with results half as wide as the state or as wide."
  },
  {
   "property": "C99",
   "status": "proved",
   "theorems": [
    "Verif.Pcg.C99_equidistributed",
    "Verif.Pcg.C99_pcg32_fast",
    "Verif.Pcg.C99_pcg32",
    "Verif.Pcg.C99_pcg64_fast"
   ],
   "note": "For every Good engine (C95_engines) with one of the three output functions in use and results of 8, 16, 32 or 64 bits."
  },
  {
   "property": "C100",
   "status": "partial",
   "theorems": [
    "Verif.Pcg.C100_unxorshift",
    "Verif.Pcg.C100_unoutput",
    "Verif.Pcg.C100_bijective",
    "Verif.Pcg.C100_once",
    "Verif.Pcg.C100_sixteen_bits",
    "Verif.Pcg.C100_sixteen_bits_unoutput",
    "Verif.Pcg.C100_sixteen_bits_count",
    "Verif.Pcg.C100_sixteen_bits_draws"
   ],
   "note": "For the five sizes of rxs_m_xs and the two of xsl_rr_rr that the library defines, with arithmetic modulo 2^w; unxorshift for every width. The 16-bit rxs_m_xs multiplies promoted int values and is undefined in 30993 states (C100_sixteen_bits, C100_sixteen_bits_count), so that no period of draws is defined (C100_sixteen_bits_draws)."
  },
  {
   "property": "C101",
   "status": "proved",
   "theorems": [
    "Verif.Pcg.C101_words",
    "Verif.Pcg.C101_pieces",
    "Verif.Pcg.C101_seed",
    "Verif.Pcg.C101_seed_stream",
    "Verif.Pcg.C101_states",
    "Verif.Pcg.C101_streams"
   ],
   "note": "Seeding is modelled word by word with reads behind the buffer as undefined behaviour. seed_seq_from and the standard seed sequences are represented by the words they deliver."
  },
  {
   "property": "C102",
   "status": "partial",
   "theorems": [
    "Verif.Pcg.C102_roundtrip",
    "Verif.Pcg.C102_fail",
    "Verif.Pcg.C102_parameters",
    "Verif.Pcg.C102_failed_stream",
    "Verif.Pcg.C102_state_unchecked"
   ],
   "note": "Round trip, atomic failure and validity of the parameters are proved. The state read is not checked: C102_state_unchecked gives a text that puts a multiplicative engine into state 0, from which it never leaves. 8- and 128-bit engines, whose numbers are not written by the standard library, and streams with a field width are not modelled."
  },
  {
   "property": "C103",
   "status": "partial",
   "theorems": [
    "Verif.Util.C103_eraseRemoveIf",
    "Verif.Util.C103_eraseRemove",
    "Verif.Util.C103_alias_partial",
    "Verif.Util.C103_alias_overwritten",
    "Verif.Util.C103_alias_witness"
   ],
   "note": "Proved for predicates and for values outside the container, and for values inside it that are never overwritten (C103_alias_partial). Otherwise false: C103_alias_overwritten gives the exact result, which keeps later elements equal to the value and removes others (C103_alias_witness). Predicates without state; for those with state see C163."
  },
  {
   "property": "C104",
   "status": "proved",
   "theorems": [
    "Verif.Util.C104_idxOf",
    "Verif.Util.C104_contains",
    "Verif.Util.C104_containsAnyIf",
    "Verif.Util.C104_containsAnyOf",
    "Verif.Util.C104_containsAllOf",
    "Verif.Util.C104_getKeys"
   ],
   "note": "std::find and std::find_if are written out; equality may be any function of two types."
  },
  {
   "property": "C105",
   "status": "partial",
   "theorems": [
    "Verif.Util.C105_new",
    "Verif.Util.C105_used",
    "Verif.Util.C105_mkUnorderedMap",
    "Verif.Util.C105_odd"
   ],
   "note": "Proved for keys not in use and for mkUnorderedMap. False for keys in use: the new object is destroyed and the reference is to the old one, undefined if that has another type (C105_used)."
  },
  {
   "property": "C106",
   "status": "partial",
   "theorems": [
    "Verif.Range.C106_asRange",
    "Verif.Range.C106_reverse",
    "Verif.Range.C106_makeRange",
    "Verif.Range.C106_wrong_order",
    "Verif.Range.C106_cast_addresses",
    "Verif.Range.C106_cast_partial",
    "Verif.Range.C106_cast_shifted",
    "Verif.Range.C106_cast_null"
   ],
   "note": "asRange, makeRange, asRangeReverse: proved for all containers, positions and loop bodies. asRangeCastPtr: proved if the base class is at offset 0 of the derived class (C106_cast_partial); reinterpret_cast keeps the address, so for any other offset no reference is to the object (C106_cast_shifted). Reversed bounds and null pointers: undefined (C106_wrong_order, C106_cast_null)."
  },
  {
   "property": "C107",
   "status": "partial",
   "theorems": [
    "Verif.Range.C107_reverse_moves",
    "Verif.Range.C107_reverse_compare",
    "Verif.Range.C107_moves",
    "Verif.Range.C107_moves_outside",
    "Verif.Range.C107_compare",
    "Verif.Range.C107_prefix_result",
    "Verif.Range.C107_postfix_wrong",
    "Verif.Range.C107_postfix_decrement_wrong"
   ],
   "note": "Moves, comparisons and prefix operators are proved. The postfix operators return the iterator itself after the move: *it++ reads the next element and is undefined at the last one (C107_postfix_wrong, C107_postfix_decrement_wrong)."
  },
  {
   "property": "C108",
   "status": "partial",
   "theorems": [
    "Verif.Range.C108_forArrAs",
    "Verif.Range.C108_forObjAs",
    "Verif.Range.C108_other_type",
    "Verif.Range.C108_unchecked",
    "Verif.Range.C108_plain",
    "Verif.Range.C108_vector_partial",
    "Verif.Range.C108_throwing_element",
    "Verif.Range.C108_sizes",
    "Verif.Range.C108_mkArr"
   ],
   "note": "Proved for all values, types of the syntax Ty and loop bodies; the vector round trip for element types without C arrays (as C23). An exception of a conversion cannot be caught, since the adaptor's get is noexcept (C108_throwing_element)."
  },
  {
   "property": "C109",
   "status": "partial",
   "theorems": [
    "Verif.Bench.C109_inside",
    "Verif.Bench.C109_nested_partial",
    "Verif.Bench.C109_program_partial",
    "Verif.Bench.C109_late_blank",
    "Verif.Bench.C109_none_running",
    "Verif.Bench.C109_without_groups"
   ],
   "note": "Proved for all nested programs whose outermost benchmarks are ended by endLo (those inside by either function). If an outermost benchmark with others inside is ended by getEndData, the empty line appears after a later one that has none (C109_late_blank)."
  },
  {
   "property": "C110",
   "status": "partial",
   "theorems": [
    "Verif.Bench.C110_first_pause",
    "Verif.Bench.C110_first_total",
    "Verif.Bench.C110_independent",
    "Verif.Bench.C110_total_partial",
    "Verif.Bench.C110_out_of_turn"
   ],
   "note": "Proved for groups whose resume and pause calls alternate, under any interleaving. Out of turn (a second pause, nested scopes of the same group, a pause without resume) the time is counted twice, lost or counted from the epoch (C110_out_of_turn)."
  },
  {
   "property": "C111",
   "status": "partial",
   "theorems": [
    "Verif.Bench.C111_end_data",
    "Verif.Bench.C111_text_partial"
   ],
   "note": "The duration of getEndData's result runs on until getDuration is called (C111_end_data: right iff asked at once). Text: exact below 2^52 ns, for any rounding to double with relative error 2^-53."
  },
  {
   "property": "C112",
   "status": "partial",
   "theorems": [
    "Verif.JsonConv.C112_round_trip_partial",
    "Verif.JsonConv.C112_overwrites_partial",
    "Verif.JsonConv.C112_array_layout",
    "Verif.JsonConv.C112_object_layout",
    "Verif.JsonConv.C112_object_read",
    "Verif.JsonConv.C112_array_read",
    "Verif.JsonConv.C112_same_name"
   ],
   "note": "Round trip, overwriting, layout and exact reading conditions are proved for all classes built with the macros. Partial because character arrays do not come back (C23), members that are maps are merged into (C25), the rvalue overloads do not compile, and two members under one name both come back as the second."
  },
  {
   "property": "C113",
   "status": "partial",
   "theorems": [
    "Verif.Casts.C113_toNum",
    "Verif.Casts.C113_enum",
    "Verif.Casts.C113_sToInt",
    "Verif.Casts.C113_sToSizeT",
    "Verif.Casts.C113_int_round_trip",
    "Verif.Casts.C113_size_round_trip_partial",
    "Verif.Casts.C113_large_size_terminates",
    "Verif.Casts.C113_not_only_numbers"
   ],
   "note": "Exact characterisation of toNum, sToInt and sToSizeT for all inputs. Partial because the property is false for sizes of 2^63 and more: sToSizeT goes through long and ends the program (C113_large_size_terminates). Text without a number also ends the program."
  },
  {
   "property": "C114",
   "status": "partial",
   "theorems": [
    "Verif.Casts.C114_range_partial",
    "Verif.Casts.C114_covers_partial",
    "Verif.Casts.C114_wrong_order",
    "Verif.Casts.C114_small_types_rejected",
    "Verif.Casts.C114_mixed_signs_fail",
    "Verif.Casts.C114_sign_partial",
    "Verif.Casts.C114_sign_covers",
    "Verif.Casts.C114_sign_unsigned_fails"
   ],
   "note": "Proved for bounds representable in the common type, relative to a uniform distribution that stays within its bounds. False for a negative and an unsigned bound and for getRndSign with unsigned types (C114_mixed_signs_fail, C114_sign_unsigned_fails)."
  },
  {
   "property": "C115",
   "status": "partial",
   "theorems": [
    "Verif.CmdLine.C115_help_text_partial",
    "Verif.CmdLine.C115_every_element_partial",
    "Verif.CmdLine.C115_interleaving",
    "Verif.CmdLine.C115_large_pack_fails",
    "Verif.CmdLine.C115_names",
    "Verif.CmdLine.C115_group_partial"
   ],
   "note": "Proved for argument packs with bounds below 10^18; with a larger bound composing the text overruns the buffer of the number conversion (C115_large_pack_fails)."
  },
  {
   "property": "C116",
   "status": "partial",
   "theorems": [
    "Verif.U128.C116_add",
    "Verif.U128.C116_sub",
    "Verif.U128.C116_neg",
    "Verif.U128.C116_mul_partial",
    "Verif.U128.C116_mul_wide_fails",
    "Verif.U128.C116_bitwise",
    "Verif.U128.C116_order",
    "Verif.U128.C116_faithful",
    "Verif.U128.C116_convert",
    "Verif.U128.C116_read",
    "Verif.U128.C116_negative",
    "Verif.U128.C116_lcg_step"
   ],
   "note": "Addition, subtraction, bitwise operators, comparisons for every word size; multiplication for 32-bit words (the 128-bit type). With 64-bit words multiplication is wrong (C116_mul_wide_fails). Negative integers are not sign-extended (C116_negative)."
  },
  {
   "property": "C117",
   "status": "partial",
   "theorems": [
    "Verif.U128.C117_left",
    "Verif.U128.C117_right_partial",
    "Verif.U128.C117_right_ub"
   ],
   "note": "Left shifts for all counts; right shifts below 160. From 160 on the first write is outside of the value (C117_right_ub)."
  },
  {
   "property": "C118",
   "status": "proved",
   "theorems": [
    "Verif.U128.C118_divmod",
    "Verif.U128.C118_by_zero"
   ],
   "note": "All divisors except zero, both word sizes; division by zero aborts."
  },
  {
   "property": "C119",
   "status": "partial",
   "theorems": [
    "Verif.U128.C119_flog2",
    "Verif.U128.C119_flog2_portable",
    "Verif.U128.C119_flog2_portable64",
    "Verif.U128.C119_trailing",
    "Verif.U128.C119_trailing_portable",
    "Verif.U128.C119_trailing_portable64",
    "Verif.U128.C119_clog2",
    "Verif.U128.C119_clog2_wide",
    "Verif.U128.C119_clog2_wider_partial",
    "Verif.U128.C119_clog2_wider_fails",
    "Verif.U128.C119_zero",
    "Verif.U128.C119_zero_portable"
   ],
   "note": "All non-zero arguments for the 128-bit type; for the 256-bit instantiation the count 256 does not fit in a byte (C119_clog2_wider_fails, C119_zero)."
  },
  {
   "property": "C120",
   "status": "proved",
   "theorems": [
    "Verif.JsonFmt.C120_pretty_layout",
    "Verif.JsonFmt.C120_minified",
    "Verif.JsonFmt.C120_no_other_text"
   ],
   "note": "Layout of the pretty and of the minifying writer, for every value."
  },
  {
   "property": "C121",
   "status": "partial",
   "theorems": [
    "Verif.JsonFmt.C121_without_colours",
    "Verif.JsonFmt.C121_same_text",
    "Verif.JsonFmt.C121_colours_partial",
    "Verif.JsonFmt.C121_no_colours_right_to_left",
    "Verif.JsonFmt.C121_commas_in_objects"
   ],
   "note": "Same text with and without colours, for every evaluation order. Colours are right only if the arguments of the formatting calls are evaluated so that the reset comes first; a right-to-left compiler shows no colours at all (C121_no_colours_right_to_left), and a comma after an atom in an object has the colour of the atom (C121_commas_in_objects)."
  },
  {
   "property": "C122",
   "status": "partial",
   "theorems": [
    "Verif.JsonConv.C122_mismatch_is_caught_partial",
    "Verif.JsonConv.C122_as_is_caught_partial",
    "Verif.JsonConv.C122_basic_kinds",
    "Verif.JsonConv.C122_integer_kind",
    "Verif.JsonConv.C122_not_caught",
    "Verif.JsonConv.C122_unchecked_mismatch",
    "Verif.JsonConv.C122_user_types_are_caught_partial",
    "Verif.JsonConv.C122_vector_check"
   ],
   "note": "Caught for the basic kinds, integers, nested containers and user types as listed in the theorems; not caught for the types of C122_not_caught. Unchecked builds have undefined behaviour (C122_unchecked_mismatch)."
  },
  {
   "property": "C123",
   "status": "partial",
   "theorems": [
    "Verif.Timeline.C123_position_partial",
    "Verif.Timeline.C123_ambiguous",
    "Verif.Timeline.C123_outside",
    "Verif.Timeline.C123_clear"
   ],
   "note": "Position proved while a command is left, for timelines without jumps; a finished timeline reports 0 like a fresh one (C123_ambiguous). Clearing proved for every state."
  },
  {
   "property": "C124",
   "status": "partial",
   "theorems": [
    "Verif.Path.C124_read_twice",
    "Verif.Path.C124_forgets",
    "Verif.Path.C124_append_partial",
    "Verif.Path.C124_reads_matter",
    "Verif.Path.C124_stale"
   ],
   "note": "Proved as long as no read adds a slash. A read of the name of an existing folder changes what later appends give (C124_reads_matter), and later changes of the file system are not noticed (C124_stale)."
  },
  {
   "property": "C125",
   "status": "proved",
   "theorems": [
    "Verif.Json.C125_emplace",
    "Verif.Json.C125_set",
    "Verif.Json.C125_outside",
    "Verif.Json.C125_not_an_array",
    "Verif.Json.C125_get_if_has",
    "Verif.Json.C125_get_if_has_key"
   ],
   "note": "Mutable access outside is undefined in checked builds too (C125_outside), as for std::vector."
  },
  {
   "property": "C126",
   "status": "partial",
   "theorems": [
    "Verif.RecVec.C126_ownership_partial",
    "Verif.RecVec.C126_all_freed_partial",
    "Verif.RecVec.C126_references_partial",
    "Verif.RecVec.C126_mono_move_dangles",
    "Verif.RecVec.C126_fixed_move_dangles",
    "Verif.RecVec.C126_throw_leaks"
   ],
   "note": "Proved for polymorphic vectors, and for monomorphic vectors and vectors with a fixed list of types that are moved only while empty (C126_ownership_partial, C126_references_partial); memory is returned when no constructor throws (C126_all_freed_partial). The exclusions are needed: C126_mono_move_dangles, C126_fixed_move_dangles, C126_throw_leaks."
  },
  {
   "property": "C127",
   "status": "partial",
   "theorems": [
    "Verif.PcgExt.C127_families",
    "Verif.PcgExt.C127_library",
    "Verif.PcgExt.C127_claim_wrong",
    "Verif.PcgExt.C127_zip_files",
    "Verif.PcgExt.C127_defined",
    "Verif.PcgExt.C127_equidistributed",
    "Verif.PcgExt.C127_frequency"
   ],
   "note": "Equidistribution over tables for all k types (C127_equidistributed, C127_library); over the period for states below 64 bits (C127_frequency). For the library's types the latter is false (C127_claim_wrong, C127_zip_files). The overflow of promoted int values in 16-bit tables (C100) is not part of this model."
  },
  {
   "property": "C128",
   "status": "partial",
   "theorems": [
    "Verif.PcgExt.C128_library",
    "Verif.PcgExt.C128_documented",
    "Verif.PcgExt.C128_period_narrow",
    "Verif.PcgExt.C128_period_wide",
    "Verif.PcgExt.C128_claim_wrong",
    "Verif.PcgExt.C128_period_fixed",
    "Verif.PcgExt.C128_stuck",
    "Verif.PcgExt.C128_visits"
   ],
   "note": "The claimed period holds for states below 64 bits (C128_period_narrow, C128_visits). For states of 64 bits and more, all types of the library, it is false: exact periods in C128_period_wide, C128_period_fixed, C128_library; C128_claim_wrong, C128_stuck."
  },
  {
   "property": "C129",
   "status": "partial",
   "theorems": [
    "Verif.PcgExt.C129_advance_iff",
    "Verif.PcgExt.C129_advance_narrow_iff",
    "Verif.PcgExt.C129_backstep_partial",
    "Verif.PcgExt.C129_backstep_misses_tick",
    "Verif.PcgExt.C129_backstep_quiet",
    "Verif.PcgExt.C129_backstep_extra_tick"
   ],
   "note": "Exactly when advance is right: C129_advance_iff, C129_advance_narrow_iff. backstep under conditions (C129_backstep_partial, C129_backstep_quiet), which are needed (C129_backstep_misses_tick, C129_backstep_extra_tick). The overflow of promoted int values in engines with 16-bit states or tables (C94, C100) is not part of this model."
  },
  {
   "property": "C130",
   "status": "partial",
   "theorems": [
    "Verif.PcgExt.C130_roundtrip",
    "Verif.PcgExt.C130_read",
    "Verif.PcgExt.C130_unique_unreadable",
    "Verif.PcgExt.C130_read_c_variants",
    "Verif.PcgExt.C130_eq",
    "Verif.PcgExt.C130_ne_diverges",
    "Verif.PcgExt.C130_seed",
    "Verif.PcgExt.C130_seed_order",
    "Verif.PcgExt.C130_table",
    "Verif.PcgExt.C130_seq",
    "Verif.PcgExt.C130_typedefs",
    "Verif.PcgExt.C130_set",
    "Verif.PcgExt.C130_plant"
   ],
   "note": "All parts are proved, the planting of sequences where the table does not move (C130_plant); reading back is impossible for address-based streams and the c variants, != never returns, the result of seeding depends on the order of evaluation, and some type definitions are wrong (C130_unique_unreadable, C130_read_c_variants, C130_ne_diverges, C130_seed_order, C130_typedefs)."
  },
  {
   "property": "C131",
   "status": "partial",
   "theorems": [
    "Verif.Files.C131_read_back_object",
    "Verif.Files.C131_read",
    "Verif.Files.C131_read_back",
    "Verif.Files.C131_failure_is_silent",
    "Verif.Files.C131_missing",
    "Verif.Files.C131_json",
    "Verif.Files.C131_log",
    "Verif.Files.C131_crash",
    "Verif.Files.C131_crash_loses_old_text",
    "Verif.Files.C131_kept",
    "Verif.Files.C131_crash_other_value"
   ],
   "note": "Read-back for every path object and for every path through ordinary names, kept under any sequence of other operations, JSON values of C16, the log. False parts proved: failure is silent, a crash loses the old text and can leave another valid JSON value."
  },
  {
   "property": "C132",
   "status": "partial",
   "theorems": [
    "Verif.Files.C132_tree",
    "Verif.Files.C132_create",
    "Verif.Files.C132_create_failure_is_silent",
    "Verif.Files.C132_remove_answers_false",
    "Verif.Files.C132_remove_failure_answers_true",
    "Verif.Files.C132_create_remove"
   ],
   "note": "Creation and removal for paths through ordinary names; the tree is kept for every path text. False parts proved: createFolder reports nothing, removeFile answers the opposite."
  },
  {
   "property": "C133",
   "status": "partial",
   "theorems": [
    "Verif.Files.C133_file_digest_partial",
    "Verif.Files.C133_bad_stream",
    "Verif.Files.C133_two_gigabytes_throws",
    "Verif.Files.C133_four_gigabytes_prefix"
   ],
   "note": "Holds below 2^31 bytes; from there on an exception or the digest of a beginning of the file (proved)."
  },
  {
   "property": "C134",
   "status": "partial",
   "theorems": [
    "Verif.Timeline.Edit.C134_order",
    "Verif.Timeline.Edit.C134_update",
    "Verif.Timeline.Edit.C134_returns",
    "Verif.Timeline.Edit.C134_self_append_never_returns",
    "Verif.Timeline.Edit.C134_insert_before_never_returns",
    "Verif.Timeline.Edit.C134_clear_is_undefined",
    "Verif.Timeline.Edit.C134_conservative"
   ],
   "note": "Proved for commands without jumps added behind the current one, with an explicit bound for the number of commands an update runs. False parts proved: inserting at or before the running action, and appending an action to itself, never return; clearing is undefined behaviour. Actions that update timelines are C154."
  },
  {
   "property": "C135",
   "status": "partial",
   "theorems": [
    "Verif.Log.Threads.C135_atomic",
    "Verif.Log.Threads.C135_atomic_moment",
    "Verif.Log.Threads.C135_log_atomic",
    "Verif.Log.Threads.C135_text",
    "Verif.Log.Threads.C135_no_deadlock",
    "Verif.Log.Threads.C135_ends",
    "Verif.Log.Threads.C135_every_order",
    "Verif.Log.Threads.C135_title_stolen",
    "Verif.Log.Threads.C135_manip_torn",
    "Verif.Log.Threads.C135_nested_never_ends"
   ],
   "note": "Atomicity (C135_atomic, C135_atomic_moment), contents of the log also with manipulators (C135_log_atomic, C135_text), no deadlock and termination (C135_no_deadlock, C135_ends), and that every order can happen (C135_every_order). False parts: a title can be taken by another thread's value (C135_title_stolen), manipulators do not lock and can land inside another value on the console (C135_manip_torn), a stringifier that logs stops the program (C135_nested_never_ends)."
  },
  {
   "property": "C136",
   "status": "partial",
   "theorems": [
    "Verif.IDist.C136_squared_signed",
    "Verif.IDist.C136_manhattan_signed",
    "Verif.IDist.C136_chebyshev_signed",
    "Verif.IDist.C136_squared_unsigned",
    "Verif.IDist.C136_unsigned_rejected",
    "Verif.IDist.C136_squared_narrow",
    "Verif.IDist.C136_others_narrow",
    "Verif.IDist.C136_small_types_fail",
    "Verif.IDist.C136_euclidean_signed",
    "Verif.IDist.C136_metric",
    "Verif.IDist.C136_squared_mixed",
    "Verif.IDist.C136_euclidean_example",
    "Verif.IDist.C136_rejected_iff"
   ],
   "note": "Proved for int and long (C136_squared_signed, C136_manhattan_signed, C136_chebyshev_signed, C136_euclidean_signed below 2^51, C136_metric): exact, or undefined if not representable; squares for unsigned types modulo their size; Manhattan and Chebyshev do not compile for unsigned. False for char- and short-sized types, whose results are reduced to the type: C136_small_types_fail. Four different coordinate types: C136_squared_mixed (squares only)."
  },
  {
   "property": "C137",
   "status": "partial",
   "theorems": [
    "Verif.Frame.Fp.C137_ieee",
    "Verif.Frame.Fp.C137_ieee_fps",
    "Verif.Frame.Fp.C137_ieee_special",
    "Verif.Frame.Fp.C137_ieee_round_trip",
    "Verif.Frame.Fp.C137_ieee_underflow",
    "Verif.Frame.Fp.C137_ieee_example",
    "Verif.Frame.C137_exact",
    "Verif.Frame.C137_rounded",
    "Verif.Frame.C137_integers",
    "Verif.Frame.C137_integers_round_trip",
    "Verif.Frame.C137_large_integers_fail",
    "Verif.Frame.C137_zero",
    "Verif.Frame.C137_example"
   ],
   "note": "Proved in exact arithmetic, with error bounds for every rounding, and for integers up to 2^24 in absolute value. In IEEE 754 arithmetic each result is the nearest number or an infinity (C137_ieee, C137_ieee_fps, C137_ieee_special), the round trip holds for numbers that are not too small (C137_ieee_round_trip). False for larger integers, which are converted to float: C137_large_integers_fail, and for tiny frametimes: C137_ieee_underflow. A frametime of zero: C137_zero."
  },
  {
   "property": "C138",
   "status": "partial",
   "theorems": [
    "Verif.Manager.C138_history",
    "Verif.Manager.C138_refresh",
    "Verif.Manager.C138_refresh_no_room",
    "Verif.Manager.C138_lost_for_ever",
    "Verif.Manager.C138_clear",
    "Verif.Manager.C138_clear_no_room",
    "Verif.Manager.C138_conservative",
    "Verif.Manager.C138_delete_in_destructor"
   ],
   "note": "Exact for destructors that create objects, in all histories: clear() destroys everything including what destructors create (C138_clear), refresh() keeps and destroys the right objects (C138_refresh). False parts: objects created by destructors during a refresh are lost, never visited and never destroyed (C138_lost_for_ever); creating is undefined if the storage has to grow (C138_refresh_no_room, C138_clear_no_room); deleting an object the refresh has passed fails an assertion (C138_delete_in_destructor, witness). Not modelled: refresh, clear or reserve from a destructor."
  },
  {
   "property": "C139",
   "status": "partial",
   "theorems": [
    "Verif.Manager.C139_loop",
    "Verif.Manager.C139_stale",
    "Verif.Manager.C139_look_first",
    "Verif.Manager.C139_timeline_manager"
   ],
   "note": "C139_loop: for every legal history and body, if no use is stale the loop visits the visible objects once each in order and equals the sequence of calls. C139_stale: a use after growth in the same round is undefined, so the unrestricted claim is false; C139_look_first: bodies that look only before creating are never stale; C139_timeline_manager: the update of a timeline manager whose timeline creates k timelines is undefined exactly if the storage must grow. Bodies that refresh or clear the manager inside the loop are C151."
  },
  {
   "property": "C140",
   "status": "partial",
   "theorems": [
    "Verif.Bimap.C140_references",
    "Verif.Bimap.C140_erase_own_key",
    "Verif.Bimap.C140_erase_own_key_debug"
   ],
   "note": "References: C140_references. Erasing by a reference to the pair's own key: C140_erase_own_key without assertions; C140_erase_own_key_debug proves that with assertions the closing check reads freed memory exactly when another pair is left. A violation of the code, not a gap in the model."
  },
  {
   "property": "C141",
   "status": "partial",
   "theorems": [
    "Verif.ToStr.C141_history_partial",
    "Verif.ToStr.C141_error_stays",
    "Verif.ToStr.C141_flags_stay",
    "Verif.ToStr.C141_nested_wrong"
   ],
   "note": "C141_history_partial: all histories of well-behaved stringifiers, with exceptions, and conversions inside output to other streams. False parts, in general form: C141_error_stays, C141_flags_stay, C141_nested_wrong (right exactly if the text lost equals the one inserted). Threads are not modelled: the stream is one per thread."
  },
  {
   "property": "C142",
   "status": "partial",
   "theorems": [
    "Verif.Json.C142_same_outcomes",
    "Verif.Json.C142_position_partial",
    "Verif.Json.C142_message",
    "Verif.Json.C142_logged",
    "Verif.Json.C142_logged_value",
    "Verif.Json.C142_completes",
    "Verif.Json.C142_marked",
    "Verif.Json.C142_minus",
    "Verif.Json.C142_end_of_text",
    "Verif.Json.C142_last_not_shown",
    "Verif.Json.C142_number_goes_on"
   ],
   "note": "Proved for all layouts of all texts with an abstract strtod. Missing because false: expected characters after a lone minus (C142_minus), the last character in the excerpt (C142_last_not_shown), characters that can continue a number (C142_number_goes_on), the message at the end of the text (C142_end_of_text)."
  },
  {
   "property": "C143",
   "status": "partial",
   "theorems": [
    "Verif.AngleInt.C143_wrap",
    "Verif.AngleInt.C143_wrap_example",
    "Verif.AngleInt.C143_wrap_fails",
    "Verif.AngleInt.C143_dist",
    "Verif.AngleInt.C143_dist_example",
    "Verif.AngleInt.C143_dist_unsigned",
    "Verif.AngleInt.C143_rad",
    "Verif.AngleInt.C143_deg_seven",
    "Verif.AngleInt.C143_deg_fails",
    "Verif.AngleInt.C143_unsigned_fails",
    "Verif.AngleInt.C143_toRad",
    "Verif.AngleInt.C143_wrap_rad",
    "Verif.AngleInt.C143_dist_rad",
    "Verif.AngleInt.C143_example"
   ],
   "note": "Exact for wrapping and distances in degrees up to 2^53 (undefined exactly when the result does not fit in the type, as for signed char); radians and directions up to about one. False beyond 2^53 (C143_wrap_fails); getDegTowards truncates before converting to degrees, so that it has only seven results (C143_deg_seven, C143_deg_fails); unsigned coordinates wrap around (C143_unsigned_fails); distances of unsigned angles do not compile (C143_dist_unsigned)."
  },
  {
   "property": "C144",
   "status": "partial",
   "theorems": [
    "Verif.CmdLine.C144_tells_partial",
    "Verif.CmdLine.C144_reason",
    "Verif.CmdLine.C144_unknown",
    "Verif.CmdLine.C144_large_pack_fails",
    "Verif.CmdLine.C144_example"
   ],
   "note": "The exact texts, and that they are true of the words (C144_tells_partial, C144_unknown) and reason enough (C144_reason), for sizes below 10^18; composing the message for a pack with a larger bound is undefined (C144_large_pack_fails). There are two spaces after the kind of element, and a flag not found in the main command is reported for the command <>. Of values only truth values are reported, a bad number ends the program (C74)."
  },
  {
   "property": "C145",
   "status": "proved",
   "theorems": [
    "Verif.RealText.C145_text",
    "Verif.RealText.C145_nearest_unique",
    "Verif.RealText.C145_text_error",
    "Verif.RealText.C145_rounding",
    "Verif.RealText.C145_read",
    "Verif.RealText.C145_read_overflow",
    "Verif.RealText.C145_set_get",
    "Verif.RealText.C145_error",
    "Verif.RealText.C145_unchanged_iff",
    "Verif.RealText.C145_settles",
    "Verif.RealText.C145_integers",
    "Verif.RealText.C145_integers_changed",
    "Verif.RealText.C145_infinite",
    "Verif.RealText.C145_history",
    "Verif.RealText.C145_keep",
    "Verif.RealText.C145_plain_history",
    "Verif.RealText.C145_division",
    "Verif.RealText.C145_stod",
    "Verif.RealText.C145_stod_small",
    "Verif.RealText.C145_stod_normal",
    "Verif.RealText.C145_stod_infinite"
   ],
   "note": "Writing is %.6g and reading is strtod, both as in libstdc++ and glibc, on IEEE 754 binary32 and binary64 values (sign of zero left out). The claim of unchanged values is proved as an equivalence (C145_unchanged_iff); the failing cases are stated and proved: integers above a million that are not multiples of ten (C145_integers_changed), infinities and NaN, which an ObfuscatedValue gives back as zero (C145_infinite), and the texts of FLT_MIN, DBL_MIN and subnormal numbers, for which sToFloat and sToDouble end the program (C145_stod_small)."
  },
  {
   "property": "C146",
   "status": "proved",
   "theorems": [
    "Verif.RealText.C146_write_then_read",
    "Verif.RealText.C146_covers",
    "Verif.RealText.C146_equal_iff",
    "Verif.RealText.C146_equal_documents",
    "Verif.RealText.C146_six_digits_back",
    "Verif.RealText.C146_layout",
    "Verif.RealText.C146_large",
    "Verif.RealText.C146_infinite"
   ],
   "note": "C16 and C17 take double as abstract operations with assumptions; here the operations are those of IEEE 754 binary64 with the text conversions of C145, and the assumptions are proved (double_laws, double_stops). Failing cases are stated and proved: doubles of 2^64 or more are written but reading their text is undefined (C146_large); inf and nan are read errors and -inf is undefined (C146_infinite)."
  },
  {
   "property": "C147",
   "status": "partial",
   "theorems": [
    "Verif.Clock.C147_exact",
    "Verif.Clock.C147_wait_never",
    "Verif.Clock.C147_wait_ends",
    "Verif.Clock.C147_wait_bounds",
    "Verif.Clock.C147_wait_nan",
    "Verif.Clock.C147_stalls",
    "Verif.Clock.C147_never",
    "Verif.Clock.C147_never_example",
    "Verif.Clock.C147_reaches",
    "Verif.Clock.C147_bounds",
    "Verif.Clock.C147_total",
    "Verif.Clock.C147_nan",
    "Verif.Clock.C147_paused_infinite",
    "Verif.Clock.C147_paused_partial"
   ],
   "note": "IEEE 754 arithmetic. Bounds on the exact sum for ticks, totals and the ends of waits (C147_bounds, C147_total, C147_wait_bounds); exact behaviour for whole numbers of a unit (C147_exact). False for long times: frame times of at most 2^(k-24) never reach a target beyond 2^k and the total stops at 2^k (C147_stalls, C147_never, C147_wait_never); targets up to 2^k are reached with frame times of at least 2^(k-24) (C147_reaches, C147_wait_ends). False for NaN, and for a paused ticker with an infinite frame time: both tick (C147_nan, C147_paused_infinite); C147_paused_partial has the finite frame times."
  },
  {
   "property": "C148",
   "status": "partial",
   "theorems": [
    "Verif.EasingInt.C148_in",
    "Verif.EasingInt.C148_overflow",
    "Verif.EasingInt.C148_out",
    "Verif.EasingInt.C148_inOut",
    "Verif.EasingInt.C148_odd",
    "Verif.EasingInt.C148_one",
    "Verif.EasingInt.C148_three",
    "Verif.EasingInt.C148_bounce",
    "Verif.EasingInt.C148_linear",
    "Verif.EasingInt.C148_map",
    "Verif.EasingInt.C148_step_example",
    "Verif.EasingInt.C148_bounce_example",
    "Verif.EasingInt.C148_beyond"
   ],
   "note": "Linear holds (C148_linear). For the others the claim is false, and what they do is proved: In and Out of the polynomials are a single step at the end (C148_in, C148_out, C148_map), InOut has three steps (C148_inOut), which miss the end for an odd change (C148_odd), for the duration 3 (C148_three) and divide by zero for the duration 1 (C148_one); Bounce does not move (C148_bounce). A result that does not fit overflows (C148_overflow). Sine, Circ, Elastic and Expo, which mix integers with floating point, are not modelled for integers."
  },
  {
   "property": "C149",
   "status": "partial",
   "theorems": [
    "Verif.EasingFp.C149_nan",
    "Verif.EasingFp.C149_linear_order",
    "Verif.EasingFp.C149_linear_overflow",
    "Verif.EasingFp.C149_linear_overflow_example",
    "Verif.EasingFp.C149_linear_end",
    "Verif.EasingFp.C149_quad_out",
    "Verif.EasingFp.C149_map",
    "Verif.EasingFp.C149_map_misses",
    "Verif.EasingFp.C149_formats",
    "Verif.EasingFp.C149_odd",
    "Verif.EasingFp.C149_start",
    "Verif.EasingFp.C149_start_nan",
    "Verif.EasingFp.C149_end",
    "Verif.EasingFp.C149_inOut_end",
    "Verif.EasingFp.C149_inOut_middle",
    "Verif.EasingFp.C149_cubic_end",
    "Verif.EasingFp.C149_order",
    "Verif.EasingFp.C149_range",
    "Verif.EasingFp.C149_example"
   ],
   "note": "Proved: the start for all (C149_start), the end for In and Out of the polynomials and InOut of Quad, Quart and Quint (C149_end, C149_inOut_end, C149_inOut_middle), the order for In of the polynomials, Out of Cubic, Quart and Quint, InOut of Quart and Quint (C149_order), the range for these and InOut of Quad (C149_range), negation (C149_odd), NaN (C149_nan), the order of Linear (C149_linear_order). False, with witnesses: Quad::out overshoots and turns back (C149_quad_out), Linear misses its end (C149_linear_end) and overflows (C149_linear_overflow), Cubic::inOut ends at start + 2 (C149_cubic_end), InOut gives NaN for the least duration (C149_start_nan), a mapped range may miss its maximum (C149_map, C149_map_misses). Back, Bounce, Circ, Elastic, Expo and Sine in floating point are C162."
  },
  {
   "property": "C150",
   "status": "proved",
   "theorems": [
    "Verif.Manager.C150_order",
    "Verif.Manager.C150_allowed",
    "Verif.Manager.C150_places",
    "Verif.Manager.C150_stay",
    "Verif.Manager.C150_nothing_deleted",
    "Verif.Manager.C150_example"
   ],
   "note": "C150_order: the iteration order equals the order-keeping specification Seq for every allowed history; C150_allowed: the same histories as Legal; C150_places, C150_stay, C150_nothing_deleted: what the order means at a refresh; C150_example: the relative order of survivors changes."
  },
  {
   "property": "C151",
   "status": "proved",
   "theorems": [
    "Verif.Manager.C151_loop",
    "Verif.Manager.C151_once",
    "Verif.Manager.C151_grow",
    "Verif.Manager.C151_erase",
    "Verif.Manager.C151_clear",
    "Verif.Manager.C151_skipped"
   ],
   "note": "C151_loop: every body, also with refresh and clear; done and undefined exactly as the specification says (bodies that break a precondition of a call are outside). C151_once, C151_grow, C151_erase, C151_clear; C151_skipped: an object is skipped and a waiting one visited. The body looks at the object before its calls; later looks are C139."
  },
  {
   "property": "C152",
   "status": "partial",
   "theorems": [
    "Verif.Container.C152_references",
    "Verif.Container.C152_assign",
    "Verif.Container.C152_dictionary",
    "Verif.Container.C152_examples"
   ],
   "note": "C152_references: every program over a vector map and references into it gives the outcome, the reads and the contents of a map with reference validity by keys. C152_assign: m[k] = m[j], either order of evaluation, is undefined exactly if the second key is new and its insertion moves or reallocates the first value, otherwise copies; so the std::map behaviour (never undefined) is false of the code. C152_dictionary: d[k] = d[j].asStr() for a new key k. C152_examples: undefined runs with the keys 1, 2, 3. The growth of the vector is a parameter."
  },
  {
   "property": "C153",
   "status": "proved",
   "theorems": [
    "Verif.Tmpl.C153_values",
    "Verif.Tmpl.C153_reading_changes",
    "Verif.Tmpl.C153_self"
   ],
   "note": "C153_values, C153_reading_changes (with the template of one tag, Maintain mode), C153_self. Values are copied: the reference aliasing of d[k] = d[j].asStr() is C152."
  },
  {
   "property": "C154",
   "status": "proved",
   "theorems": [
    "Verif.Timeline.System.C154_layers",
    "Verif.Timeline.System.C154_returns",
    "Verif.Timeline.System.C154_circles",
    "Verif.Timeline.System.C154_stopped",
    "Verif.Timeline.System.C154_example"
   ],
   "note": "C154_layers (each timeline as if alone, order of calls and effects given by an inductive specification), C154_returns (no Go, effects only), C154_circles (never returns), C154_stopped, C154_example. Predicates of WaitWhile/WaitUntil know the past of their own timeline only; no timeline or command is created or destroyed during an update (C134, C139)."
  },
  {
   "property": "C155",
   "status": "proved",
   "theorems": [
    "Verif.Timeline.Throw.C155_conservative",
    "Verif.Timeline.Throw.C155_retry",
    "Verif.Timeline.Throw.C155_at_least_once",
    "Verif.Timeline.Throw.C155_example"
   ],
   "note": "C155_retry: effects described by the inductive Tried (attempts given up had a proper prefix of the effects), position, finishing; C155_at_least_once; C155_conservative: without exceptions it is the timeline of C49-C52; C155_example. Timelines with Go or with actions that move the timeline are only covered by C155_conservative."
  },
  {
   "property": "C156",
   "status": "proved",
   "theorems": [
    "Verif.Json.Part.C156_assign",
    "Verif.Json.Part.C156_new_entry",
    "Verif.Json.Part.C156_into_itself",
    "Verif.Json.Part.C156_example"
   ],
   "note": "Both directions are exact: the conditions under which the assignment is undefined are stated and proved, and in all other cases the result is described place by place. Simplification: a vector with spare memory moves its elements by move assignment, so that references into a moved element stay valid (GCC's library); whether a vector is full is a parameter."
  },
  {
   "property": "C157",
   "status": "proved",
   "theorems": [
    "Verif.Manager.Ctor.C157_constructors",
    "Verif.Manager.Ctor.C157_order",
    "Verif.Manager.Ctor.C157_conservative",
    "Verif.Manager.Ctor.C157_exception",
    "Verif.Manager.Ctor.C157_delete_itself",
    "Verif.Manager.Ctor.C157_example"
   ],
   "note": "C157_constructors: refinement of an ordered specification in which objects under construction have no place, for all nested programs; C157_order: for programs that only create, the order is that of the ends of the constructors; C157_exception, C157_delete_itself for any history before and any body; C157_conservative: programs whose constructors do nothing are those of the other manager theorems."
  },
  {
   "property": "C158",
   "status": "proved",
   "theorems": [
    "Verif.RecVec.Ctor.C158_exactly",
    "Verif.RecVec.Ctor.C158_orders_agree",
    "Verif.RecVec.Ctor.C158_owned_once",
    "Verif.RecVec.Ctor.C158_makes_another"
   ],
   "note": "Exact for both evaluation orders (C158_exactly); a defined position-first program gives the same result object-first (C158_orders_agree); ownership (C158_owned_once); createAt of an object that makes another one, position first, is undefined exactly at the end and in a full vector (C158_makes_another)."
  },
  {
   "property": "C159",
   "status": "proved",
   "theorems": [
    "Verif.Pcg.C159_sizes",
    "Verif.Pcg.C159_defined",
    "Verif.Pcg.C159_draw"
   ],
   "note": "C159_sizes for every width below 16 or from 32 on, C159_draw for 16 bits, C159_defined for every width. What overflows with 16 bits: C94_sixteen_bits, C96_sixteen_bits, C100_sixteen_bits."
  },
  {
   "property": "C160",
   "status": "proved",
   "theorems": [
    "Verif.Delegate.Reenter.C160_exact",
    "Verif.Delegate.Reenter.C160_keeps",
    "Verif.Delegate.Reenter.C160_reachable",
    "Verif.Delegate.Reenter.C160_undefined_iff",
    "Verif.Delegate.Reenter.C160_reentrant",
    "Verif.Delegate.Reenter.C160_exception",
    "Verif.Delegate.Reenter.C160_clear",
    "Verif.Delegate.Reenter.C160_doubling"
   ],
   "note": "C160_exact with C160_reachable (every reachable state qualifies), C160_undefined_iff, C160_reentrant, C160_keeps, C160_exception, C160_clear, C160_doubling. The destruction of a function object while it runs counts as undefined at once; copies of delegates made by handlers are other delegates."
  },
  {
   "property": "C161",
   "status": "proved",
   "theorems": [
    "Verif.PcgExt.C161_discard_iff",
    "Verif.PcgExt.C161_discard_quiet",
    "Verif.PcgExt.C161_discard_wrong",
    "Verif.PcgExt.C161_discard_fixed",
    "Verif.PcgExt.C161_minus",
    "Verif.PcgExt.C161_minus_zero",
    "Verif.PcgExt.C161_minus_zero_differs",
    "Verif.PcgExt.C161_wrapped"
   ],
   "note": "That discard is not d calls where the table moves is part of the statement (C161_discard_iff is exact for all generators, C161_discard_wrong for those that look at low bits). The condition that the table has at least as many bits as the state holds for all generators that the library defines."
  },
  {
   "property": "C162",
   "status": "partial",
   "theorems": [
    "Verif.EasingFp.C162_bounce_floor",
    "Verif.EasingFp.C162_start_partial",
    "Verif.EasingFp.C162_back_out_start",
    "Verif.EasingFp.C162_back_out_start_misses",
    "Verif.EasingFp.C162_end_partial",
    "Verif.EasingFp.C162_back_in_end",
    "Verif.EasingFp.C162_back_in_misses",
    "Verif.EasingFp.C162_middle_partial",
    "Verif.EasingFp.C162_circ_jumps",
    "Verif.EasingFp.C162_circ_order",
    "Verif.EasingFp.C162_expo_order",
    "Verif.EasingFp.C162_pow_example",
    "Verif.EasingFp.C162_sine_out_misses",
    "Verif.EasingFp.C162_sine_in_overshoots",
    "Verif.EasingFp.C162_sine_example"
   ],
   "note": "Proved for float and double, except: Back::out in double starts 2^-52 of the change off and Back::in in double never reaches the change (both proved); Sine in double, whose pi is a float, misses the change with Sine::out and overshoots with Sine::in (proved for any sine and cosine accurate to 2^-52 and 2^-40); Circ::inOut is at or beyond the end in the middle if the unsequenced operand is read first (proved). The order of the values is proved for Circ and Expo (C162_circ_order, C162_expo_order; Expo::out if ten times the duration is finite, inOut if the halves are exact); the values in between are otherwise only bounded for Bounce::out; pow, sin and cos are not modelled beyond their exact cases and, for Expo, their order."
  },
  {
   "property": "C163",
   "status": "proved",
   "theorems": [
    "Verif.Util.C163_shared",
    "Verif.Util.C163_own",
    "Verif.Util.C163_nth",
    "Verif.Util.C163_find",
    "Verif.Util.C163_trim",
    "Verif.Util.C163_stateless"
   ],
   "note": "std::remove_if, std::find_if and std::find_if_not as in libstdc++ (the standard does not fix how often a predicate is copied). The first elements after a removal being asked afresh is proved exactly (C163_own)."
  },
  {
   "property": "C164",
   "status": "partial",
   "theorems": [
    "Verif.Console.C164_texts",
    "Verif.Console.C164_colours",
    "Verif.Console.C164_untouched",
    "Verif.Console.C164_one_stream",
    "Verif.Console.C164_styles_add_up",
    "Verif.Console.C164_other_stream",
    "Verif.Console.C164_kept",
    "Verif.Console.C164_null",
    "Verif.Console.C164_clear"
   ],
   "note": "Texts: C164_texts; clearing: C164_clear. Colours, for any history on any number of streams: C164_colours, C164_untouched; one stream, colours and all attributes exactly: C164_one_stream. False: styles add up instead of replacing each other (C164_styles_add_up), formats leak between streams (C164_other_stream), all kept format strings are one object (C164_kept). Without console support: C164_null. Texts that contain escape characters are left out."
  },
  {
   "property": "C165",
   "status": "partial",
   "theorems": [
    "Verif.Console.C165_first",
    "Verif.Console.C165_no_terminal",
    "Verif.Console.C165_null"
   ],
   "note": "Exact answers for every sequence of queries: the size at the first query, also after a resize (so not the current one), rulers with offsets, an exception for negative widths (C165_first); undefined behaviour although the information is said to be valid when the standard output is not a terminal (C165_no_terminal); C165_null without console support."
  },
  {
   "property": "C166",
   "status": "proved",
   "theorems": [
    "Verif.Grow.C166_grow",
    "Verif.Grow.C166_no_memory",
    "Verif.Grow.C166_move_throws",
    "Verif.Grow.C166_endless",
    "Verif.Grow.C166_wrong",
    "Verif.Grow.C166_history",
    "Verif.Grow.C166_bounds"
   ],
   "note": "The statement says what the code does, including where it disappoints: after a throwing move the values before it are lost (C166_move_throws), and from 2^32 elements on growing does not end (C166_endless). A wrong old capacity is undefined when the smaller of the array and the new capacity has fewer than 2^32 elements."
  },
  {
   "property": "C167",
   "status": "proved",
   "theorems": [
    "Verif.FnTraits.C167_signature",
    "Verif.FnTraits.C167_supported",
    "Verif.FnTraits.C167_noexcept_rejected",
    "Verif.FnTraits.C167_const_pointer_rejected",
    "Verif.FnTraits.C167_member_round_trip",
    "Verif.FnTraits.C167_member_type",
    "Verif.FnTraits.C167_owner"
   ],
   "note": "Types as terms; C167_noexcept_rejected and C167_const_pointer_rejected are the callables without traits."
  },
  {
   "property": "C168",
   "status": "proved",
   "theorems": [
    "Verif.MakeArray.C168_kept",
    "Verif.MakeArray.C168_compiles",
    "Verif.MakeArray.C168_order",
    "Verif.MakeArray.C168_type"
   ],
   "note": "Arguments that are not constant expressions, on x86-64; floating-point values are abstract."
  }
 ]
}