# Axioms of the theorems named in MANIFEST.json

Output of `#print axioms`, one line per theorem.

* C01 `Verif.Manager.C01_refresh_keeps_exactly_live`: propext, Classical.choice, Quot.sound
* C02 `Verif.Manager.C02_no_undefined_behaviour`: propext, Classical.choice, Quot.sound
* C02 `Verif.Manager.C02_objects_live_iff_existing`: propext, Classical.choice, Quot.sound
* C02 `Verif.Manager.C02_clear_destroys_everything`: propext, Classical.choice, Quot.sound
* C03 `Verif.Manager.C03_visible_range_is_stable`: propext, Classical.choice, Quot.sound
* C04 `Verif.Manager.C04_reserve_preserves`: propext, Quot.sound
* C04 `Verif.Manager.C04_create_always_has_room`: propext, Classical.choice, Quot.sound
* C05 `Verif.Recycler.C05_live_objects_never_share`: propext, Classical.choice, Quot.sound
* C05 `Verif.Recycler.C05_live_objects_never_share_stay`: propext, Classical.choice, Quot.sound
* C05 `Verif.Recycler.C05_live_objects_never_share_manager_partial`: propext, Classical.choice, Quot.sound
* C05 `Verif.Recycler.C05_other_types_rejected`: propext, Classical.choice, Quot.sound
* C06 `Verif.Recycler.C06_all_blocks_freed_stay_partial`: propext, Classical.choice, Quot.sound
* C06 `Verif.Recycler.C06_all_blocks_freed_partial`: propext, Classical.choice, Quot.sound
* C06 `Verif.Recycler.C06_mono_move_assign_leaks`: propext, Quot.sound
* C06 `Verif.Recycler.C06_mono_move_dangles`: propext, Quot.sound
* C06 `Verif.Recycler.C06_fixed_moves_fail`: propext, Quot.sound
* C06 `Verif.Recycler.C06_throwing_constructor_leaks`: propext, Quot.sound
* C07 `Verif.Recycler.C07_blocks_big_enough`: propext, Classical.choice, Quot.sound
* C07 `Verif.Recycler.C07_blocks_big_enough_stay`: propext, Classical.choice, Quot.sound
* C07 `Verif.Recycler.C07_blocks_big_enough_manager_partial`: propext, Classical.choice, Quot.sound
* C07 `Verif.Recycler.C07_overaligned_type_breaks`: propext, Quot.sound
* C08 `Verif.Container.C08_behaves_like_finite_map`: propext, Classical.choice, Quot.sound
* C08 `Verif.Container.C08_write_frame`: propext, Classical.choice, Quot.sound
* C09 `Verif.Container.C09_strictly_increasing`: propext, Classical.choice, Quot.sound
* C09 `Verif.Container.C09_initializer_list_partial`: propext, Classical.choice, Quot.sound
* C09 `Verif.Container.C09_duplicate_keys_survive`: propext, Quot.sound
* C10 `Verif.Container.C10_sorted_permutation`: propext, Classical.choice, Quot.sound
* C10 `Verif.Container.C10_insert_position`: propext, Classical.choice, Quot.sound
* C11 `Verif.Bimap.C11_size`: propext, Classical.choice, Quot.sound
* C11 `Verif.Bimap.C11_from_list`: propext, Classical.choice, Quot.sound
* C11 `Verif.Bimap.C11_bimap_is_a_bijection`: propext, Classical.choice, Quot.sound
* C12 `Verif.Bimap.C12_default_partner_in_use_always`: propext, Classical.choice, Quot.sound
* C12 `Verif.Bimap.C12_index_inserts_partial`: propext, Classical.choice, Quot.sound
* C12 `Verif.Bimap.C12_index_other_side_partial`: propext, Classical.choice, Quot.sound
* C12 `Verif.Bimap.C12_default_partner_in_use`: none
* C12 `Verif.Bimap.C12_write_through_reference_breaks_order`: none
* C13 `Verif.Bimap.C13_fatenum_conversions_inverse`: propext, Classical.choice, Quot.sound
* C14 `Verif.Delegate.C14_delegate_calls_each_once_in_order`: propext, Quot.sound
* C14 `Verif.Delegate.C14_log_of_a_call`: propext, Quot.sound
* C14 `Verif.Delegate.C14_adding_within_capacity`: propext, Quot.sound
* C14 `Verif.Delegate.C14_editing_the_running_delegate_is_ub`: propext
* C14 `Verif.Delegate.C14_clearing_while_running_is_ub`: propext, Quot.sound
* C14 `Verif.Delegate.C14_adding_when_full_is_ub`: propext, Quot.sound
* C15 `Verif.Union.C15_union_lifecycle_throwing`: propext, Classical.choice, Quot.sound
* C15 `Verif.Union.C15_after_a_throw_no_way_out`: propext, Classical.choice, Quot.sound
* C15 `Verif.Union.C15_union_unchecked`: propext, Classical.choice, Quot.sound
* C15 `Verif.Union.C15_union_unchecked_reads`: propext, Quot.sound
* C15 `Verif.Union.C15_pod_fine_iff`: propext, Classical.choice, Quot.sound
* C15 `Verif.Union.C15_pod_value`: propext, Quot.sound
* C15 `Verif.Union.C15_index_is_position`: propext, Classical.choice, Quot.sound
* C15 `Verif.Union.C15_union_lifecycle_partial`: propext, Classical.choice, Quot.sound
* C15 `Verif.Union.C15_union_release_partial`: propext, Quot.sound
* C15 `Verif.Union.C15_maybe_lifecycle_partial`: propext, Classical.choice, Quot.sound
* C15 `Verif.Union.C15_pod_reads_last_stored`: propext, Quot.sound
* C15 `Verif.Union.C15_throwing_constructor`: none
* C16 `Verif.Json.C16_string_comes_back_iff`: propext, Classical.choice, Quot.sound
* C16 `Verif.Json.C16_read_without_backslash`: propext, Classical.choice, Quot.sound
* C16 `Verif.Json.C16_quote_never_comes_back`: propext, Classical.choice, Quot.sound
* C16 `Verif.Json.C16_write_then_read_partial`: propext, Classical.choice, Quot.sound
* C16 `Verif.Json.C16_plain_values_identical_partial`: propext, Classical.choice, Quot.sound
* C16 `Verif.Json.C16_quote_not_escaped`: propext, Classical.choice, Quot.sound
* C16 `Verif.Json.C16_backslash_not_escaped`: propext, Classical.choice, Quot.sound
* C16 `Verif.Json.C16_large_integer_changes`: propext, Classical.choice, Quot.sound
* C16 `Verif.Json.C16_longest_integer_not_written`: propext, Classical.choice, Quot.sound
* C17 `Verif.Json.C17_layout_of_any_text_partial`: propext, Classical.choice, Quot.sound
* C17 `Verif.Json.C17_layout_does_not_matter_partial`: propext, Classical.choice, Quot.sound
* C17 `Verif.Json.C17_layouts_agree_partial`: propext, Classical.choice, Quot.sound
* C17 `Verif.Json.C17_leading_space_changes_number`: propext, Classical.choice, Quot.sound
* C18 `Verif.Json.C18_layout_safe_partial`: propext, Classical.choice, Quot.sound
* C18 `Verif.Json.C18_layout_condition_needed`: propext, Classical.choice, Quot.sound
* C18 `Verif.Json.C18_always_terminates`: propext, Classical.choice, Quot.sound
* C18 `Verif.Json.C18_no_out_of_range_access_partial`: propext, Classical.choice, Quot.sound
* C18 `Verif.Json.C18_unterminated_string_or_comment`: propext, Classical.choice, Quot.sound
* C18 `Verif.Json.C18_empty_text`: propext, Classical.choice, Quot.sound
* C18 `Verif.Json.C18_left_over_text`: propext, Classical.choice, Quot.sound
* C18 `Verif.Json.C18_large_number`: propext, Classical.choice, Quot.sound
* C18 `Verif.Json.C18_not_ascii`: propext, Classical.choice, Quot.sound
* C18 `Verif.Json.C18_unknown_escape`: propext, Classical.choice, Quot.sound
* C18 `Verif.Json.C18_accepts_garbage`: propext, Classical.choice, Quot.sound
* C18 `Verif.Json.C18_error_keeps_value`: propext, Classical.choice, Quot.sound
* C19 `Verif.Json.C19_literal_is_decoded_partial`: propext, Classical.choice, Quot.sound
* C19 `Verif.Json.C19_literals_are_separated_partial`: propext, Classical.choice, Quot.sound
* C19 `Verif.Json.C19_scanner_stops_at_quote`: propext, Quot.sound
* C19 `Verif.Json.C19_trailing_backslash`: propext, Classical.choice, Quot.sound
* C19 `Verif.Json.C19_unicode_escape`: propext, Classical.choice, Quot.sound
* C20 `Verif.Json.C20_key_order`: propext, Quot.sound
* C20 `Verif.Json.C20_set_then_get`: propext, Classical.choice, Quot.sound
* C20 `Verif.Json.C20_sequence_of_writes`: propext, Classical.choice, Quot.sound
* C20 `Verif.Json.C20_mutable_read`: propext, Classical.choice, Quot.sound
* C20 `Verif.Json.C20_read_objects_sorted`: propext, Classical.choice, Quot.sound
* C20 `Verif.Json.C20_last_duplicate_wins_partial`: propext, Classical.choice, Quot.sound
* C21 `Verif.JsonLife.C21_throw_scalar`: propext, Classical.choice, Quot.sound
* C21 `Verif.JsonLife.C21_throw_owning`: propext, Classical.choice, Quot.sound
* C21 `Verif.JsonLife.C21_assignments_partial`: propext, Classical.choice, Quot.sound
* C21 `Verif.JsonLife.C21_other_assignments_are_undefined`: propext, Classical.choice, Quot.sound
* C21 `Verif.JsonLife.C21_direct_assignments`: propext, Classical.choice, Quot.sound
* C21 `Verif.JsonLife.C21_construction`: propext, Classical.choice, Quot.sound
* C21 `Verif.JsonLife.C21_concrete_failures`: propext, Classical.choice, Quot.sound
* C22 `Verif.Json.C22_equivalence_integers_partial`: propext, Classical.choice, Quot.sound
* C22 `Verif.Json.C22_equivalence_reals_partial`: propext, Classical.choice, Quot.sound
* C22 `Verif.Json.C22_no_numbers`: propext, Classical.choice, Quot.sound
* C22 `Verif.Json.C22_not_symmetric`: propext, Classical.choice, Quot.sound
* C22 `Verif.Json.C22_not_transitive`: propext, Classical.choice, Quot.sound
* C22 `Verif.Json.C22_undefined`: propext, Classical.choice, Quot.sound
* C22 `Verif.Json.C22_not_reflexive`: propext
* C23 `Verif.JsonConv.C23_char_array_exactly`: propext, Classical.choice, Quot.sound
* C23 `Verif.JsonConv.C23_round_trip_partial`: propext, Classical.choice, Quot.sound
* C23 `Verif.JsonConv.C23_array_round_trip_partial`: propext, Classical.choice, Quot.sound
* C23 `Verif.JsonConv.C23_char_array_partial`: propext, Quot.sound
* C23 `Verif.JsonConv.C23_char_array_fails`: propext, Quot.sound
* C24 `Verif.JsonConv.C24_char_array_never_passes`: propext, Quot.sound
* C24 `Verif.JsonConv.C24_stored_passes_check_partial`: propext, Classical.choice, Quot.sound
* C24 `Verif.JsonConv.C24_char_array_fails`: propext, Quot.sound
* C24 `Verif.JsonConv.C24_check_sound_partial`: propext, Classical.choice, Quot.sound
* C24 `Verif.JsonConv.C24_array_check_sound_partial`: propext, Classical.choice, Quot.sound
* C24 `Verif.JsonConv.C24_enum_and_map_fail`: propext, Quot.sound
* C24 `Verif.JsonConv.C24_bitset_fails`: propext, Classical.choice, Quot.sound
* C24 `Verif.JsonConv.C24_large_real_fails`: propext, Quot.sound
* C25 `Verif.JsonConv.C25_map_merge`: propext, Quot.sound
* C25 `Verif.JsonConv.C25_target_is_overwritten_partial`: propext, Classical.choice, Quot.sound
* C25 `Verif.JsonConv.C25_outcome_independent_partial`: propext
* C25 `Verif.JsonConv.C25_map_is_merged`: propext, Quot.sound
* C26 `Verif.Base64.C26_decode_inverts_encode_partial`: propext, Classical.choice, Quot.sound
* C26 `Verif.Base64.C26_long_text_overflows`: propext, Classical.choice, Quot.sound
* C27 `Verif.Base64.C27_encode_is_rfc4648`: propext, Classical.choice, Quot.sound
* C27 `Verif.Base64.C27_length`: propext, Classical.choice, Quot.sound
* C27 `Verif.Base64.C27_alphabet`: propext, Classical.choice, Quot.sound
* C28 `Verif.Md5.C28_hash_is_rfc1321`: propext, Classical.choice, Quot.sound
* C28 `Verif.Md5.C28_length`: propext, Classical.choice, Quot.sound
* C29 `Verif.Md5.C29_streaming_partial`: propext, Classical.choice, Quot.sound
* C29 `Verif.Md5.C29_cuts_agree_partial`: propext, Classical.choice, Quot.sound
* C29 `Verif.Md5.C29_long_piece_overruns`: propext, Classical.choice, Quot.sound
* C30 `Verif.Obf.C30_divide_by_zero`: propext, Classical.choice, Quot.sound
* C30 `Verif.Obf.C30_plain_variable_partial`: propext, Classical.choice, Quot.sound
* C30 `Verif.Obf.C30_extreme_values`: propext, Classical.choice, Quot.sound
* C30 `Verif.Obf.C30_char_partial`: propext, Classical.choice, Quot.sound
* C30 `Verif.Obf.C30_char_white_space`: propext, Classical.choice, Quot.sound
* C31 `Verif.Str.C31_array_with_zero`: propext, Classical.choice, Quot.sound
* C31 `Verif.Str.C31_array_unique`: propext, Quot.sound
* C31 `Verif.Str.C31_cuts_exist_uniquely`: propext, Classical.choice, Quot.sound
* C31 `Verif.Str.C31_normal_partial`: propext, Classical.choice, Quot.sound
* C31 `Verif.Str.C31_trailing_partial`: propext, Classical.choice, Quot.sound
* C31 `Verif.Str.C31_pieces_free_partial`: propext, Classical.choice, Quot.sound
* C31 `Verif.Str.C31_trailing_concat_partial`: propext, Classical.choice, Quot.sound
* C31 `Verif.Str.C31_empty_separator`: propext, Classical.choice, Quot.sound
* C31 `Verif.Str.C31_empty_in_list`: propext, Classical.choice, Quot.sound
* C32 `Verif.Str.C32_list_tokens_partial`: propext, Classical.choice, Quot.sound
* C32 `Verif.Str.C32_list_concat_partial`: propext, Classical.choice, Quot.sound
* C32 `Verif.Str.C32_single_separator_wrong`: propext, Classical.choice, Quot.sound
* C32 `Verif.Str.C32_single_char_wrong`: propext, Classical.choice, Quot.sound
* C32 `Verif.Str.C32_leading_separator_throws`: propext, Classical.choice, Quot.sound
* C33 `Verif.Str.C33_left`: propext, Classical.choice, Quot.sound
* C33 `Verif.Str.C33_right`: propext, Classical.choice, Quot.sound
* C33 `Verif.Str.C33_both`: propext, Classical.choice, Quot.sound
* C33 `Verif.Str.C33_left_unique`: propext, Classical.choice, Quot.sound
* C33 `Verif.Str.C33_right_unique`: propext, Classical.choice, Quot.sound
* C33 `Verif.Str.C33_idempotent`: propext, Classical.choice, Quot.sound
* C33 `Verif.Str.C33_strings`: propext, Classical.choice, Quot.sound
* C34 `Verif.Str.C34_other_objects`: Quot.sound
* C34 `Verif.Str.C34_self_never_ends`: propext, Classical.choice, Quot.sound
* C34 `Verif.Str.C34_by_self`: propext, Classical.choice, Quot.sound
* C34 `Verif.Str.C34_copy_of_self`: propext, Classical.choice, Quot.sound
* C34 `Verif.Str.C34_replaceAll_partial`: propext, Classical.choice, Quot.sound
* C34 `Verif.Str.C34_disjoint_partial`: propext, Classical.choice, Quot.sound
* C34 `Verif.Str.C34_shorter_terminates_partial`: propext, Classical.choice, Quot.sound
* C34 `Verif.Str.C34_none_left`: propext, Classical.choice, Quot.sound
* C34 `Verif.Str.C34_never_ends`: propext, Classical.choice, Quot.sound
* C34 `Verif.Str.C34_replaces_again`: propext, Classical.choice, Quot.sound
* C35 `Verif.Str.C35_prefix_suffix`: propext, Classical.choice, Quot.sound
* C35 `Verif.Str.C35_chars`: propext, Quot.sound
* C35 `Verif.Str.C35_char_count`: propext, Quot.sound
* C36 `Verif.Str.C36_least_edits`: propext, Classical.choice, Quot.sound
* C36 `Verif.Str.C36_metric`: propext, Classical.choice, Quot.sound
* C37 `Verif.IntStr.C37_toStr_partial`: propext, Classical.choice, Quot.sound
* C37 `Verif.IntStr.C37_text_parses_back`: propext, Classical.choice, Quot.sound
* C37 `Verif.IntStr.C37_independent_of_earlier_calls`: propext, Classical.choice, Quot.sound
* C37 `Verif.IntStr.C37_every_type_overruns`: propext, Classical.choice, Quot.sound
* C38 `Verif.Path.C38_canonical`: propext, Classical.choice, Quot.sound
* C38 `Verif.Path.C38_ends`: propext, Classical.choice, Quot.sound
* C39 `Verif.Path.C39_parent_and_name_partial`: propext, Classical.choice, Quot.sound
* C39 `Verif.Path.C39_root_entry`: propext, Classical.choice, Quot.sound
* C39 `Verif.Path.C39_empty_parent`: propext, Quot.sound
* C39 `Verif.Path.C39_name_and_extension`: propext, Classical.choice, Quot.sound
* C39 `Verif.Path.C39_all_extensions_partial`: propext, Classical.choice, Quot.sound
* C39 `Verif.Path.C39_two_extensions`: propext, Classical.choice, Quot.sound
* C39 `Verif.Path.C39_folder_name_partial`: propext, Classical.choice, Quot.sound
* C39 `Verif.Path.C39_single_folder_name`: propext, Classical.choice, Quot.sound
* C39 `Verif.Path.C39_root_folder_name`: propext, Classical.choice, Quot.sound
* C40 `Verif.Path.C40_single_partial`: propext, Classical.choice, Quot.sound
* C40 `Verif.Path.C40_dotted_folder`: propext, Classical.choice, Quot.sound
* C40 `Verif.Path.C40_recurse_flat_partial`: propext, Classical.choice, Quot.sound
* C40 `Verif.Path.C40_nested_never_reported`: propext, Classical.choice, Quot.sound
* C40 `Verif.Path.C40_endless`: propext, Classical.choice, Quot.sound
* C40 `Verif.Path.C40_not_a_folder`: propext, Classical.choice, Quot.sound
* C40 `Verif.Path.C40_nested_case`: propext, Classical.choice, Quot.sound
* C41 `Verif.Num.C41_getMod`: propext, Classical.choice, Quot.sound
* C41 `Verif.Num.C41_getMod_half`: propext, Classical.choice, Quot.sound
* C41 `Verif.Num.C41_getMod_signed_overflow`: propext, Classical.choice, Quot.sound
* C41 `Verif.Num.C41_getMod_unsigned_overflow`: propext, Classical.choice, Quot.sound
* C41 `Verif.Num.C41_getMod_mixed_sign`: propext, Quot.sound
* C41 `Verif.Num.C41_getModRange`: propext, Classical.choice, Quot.sound
* C41 `Verif.Num.C41_getModRange_unsigned`: propext, Classical.choice, Quot.sound
* C41 `Verif.Num.C41_getModRange_mixed_sign`: propext, Quot.sound
* C42 `Verif.Num.C42_nonneg_partial`: propext, Classical.choice, Quot.sound
* C42 `Verif.Num.C42_negative`: propext, Classical.choice, Quot.sound
* C42 `Verif.Num.C42_negative_witness`: propext
* C42 `Verif.Num.C42_empty`: propext, Quot.sound
* C43 `Verif.Num.C43_2D_coordinates_partial`: propext, Classical.choice, Quot.sound
* C43 `Verif.Num.C43_2D_index_partial`: propext, Classical.choice, Quot.sound
* C43 `Verif.Num.C43_2D_zero_debug`: propext, Classical.choice, Quot.sound
* C43 `Verif.Num.C43_3D_bijection`: propext, Classical.choice, Quot.sound
* C43 `Verif.Num.C43_3D_back`: propext, Classical.choice, Quot.sound
* C43 `Verif.Num.C43_3D_witness`: propext
* C44 `Verif.Num.C44_clamp_order`: propext, Quot.sound
* C44 `Verif.Num.C44_one_sided_order`: propext
* C44 `Verif.Num.C44_inverted`: propext, Quot.sound
* C44 `Verif.Num.C44_clamp`: propext, Quot.sound
* C44 `Verif.Num.C44_clamp_same`: propext, Classical.choice, Quot.sound
* C44 `Verif.Num.C44_getClamped`: propext, Quot.sound
* C44 `Verif.Num.C44_one_sided`: propext, Quot.sound
* C44 `Verif.Num.C44_mixed_sign`: propext
* C45 `Verif.CmdLine.C45_runs_the_named`: propext, Classical.choice, Quot.sound
* C45 `Verif.CmdLine.C45_found`: propext, Classical.choice, Quot.sound
* C45 `Verif.CmdLine.C45_unknown`: propext, Classical.choice, Quot.sound
* C46 `Verif.CmdLine.C46_runs`: propext, Classical.choice, Quot.sound
* C46 `Verif.CmdLine.C46_too_few`: propext, Classical.choice, Quot.sound
* C46 `Verif.CmdLine.C46_too_many`: propext, Classical.choice, Quot.sound
* C46 `Verif.CmdLine.C46_too_many_throws`: propext, Classical.choice, Quot.sound
* C46 `Verif.CmdLine.C46_accepts`: propext, Classical.choice, Quot.sound
* C46 `Verif.CmdLine.C46_greedy_witness`: propext, Classical.choice, Quot.sound
* C46 `Verif.CmdLine.C46_negative_witness`: propext, Classical.choice, Quot.sound
* C47 `Verif.CmdLine.C47_flags`: propext, Classical.choice, Quot.sound
* C47 `Verif.CmdLine.C47_positional`: propext, Classical.choice, Quot.sound
* C47 `Verif.CmdLine.C47_swapped_witness`: propext, Classical.choice, Quot.sound
* C47 `Verif.CmdLine.C47_unknown_witness`: propext, Classical.choice, Quot.sound
* C47 `Verif.CmdLine.C47_in_order_partial`: propext, Classical.choice, Quot.sound
* C48 `Verif.CmdLine.C48_unknown_flag`: propext, Classical.choice, Quot.sound
* C48 `Verif.CmdLine.C48_too_many`: propext, Classical.choice, Quot.sound
* C48 `Verif.CmdLine.C48_flag_witness`: propext, Classical.choice, Quot.sound
* C48 `Verif.CmdLine.C48_pack_witness`: propext, Classical.choice, Quot.sound
* C48 `Verif.CmdLine.C48_value_witness`: propext, Classical.choice, Quot.sound
* C48 `Verif.CmdLine.C48_early_partial`: propext, Classical.choice, Quot.sound
* C48 `Verif.CmdLine.C48_frame_partial`: propext, Classical.choice, Quot.sound
* C48 `Verif.CmdLine.C48_no_packs_partial`: propext, Classical.choice, Quot.sound
* C49 `Verif.Timeline.C49_order`: propext, Classical.choice, Quot.sound
* C49 `Verif.Timeline.C49_update`: propext, Classical.choice, Quot.sound
* C49 `Verif.Timeline.C49_finishes`: propext, Classical.choice, Quot.sound
* C49 `Verif.Timeline.C49_stops_at_finished_wait`: propext, Classical.choice, Quot.sound
* C50 `Verif.Timeline.C50_waits`: propext, Quot.sound
* C50 `Verif.Timeline.C50_ends`: propext, Quot.sound
* C50 `Verif.Timeline.C50_wait_while`: propext, Quot.sound
* C50 `Verif.Timeline.C50_wait_until`: propext, Quot.sound
* C50 `Verif.Timeline.C50_time_partial`: propext, Classical.choice, Quot.sound
* C50 `Verif.Timeline.C50_overshoot_lost`: propext, Quot.sound
* C50 `Verif.Timeline.C50_two_waits_witness`: propext, Classical.choice, Quot.sound
* C51 `Verif.Timeline.C51_counts`: propext, Quot.sound
* C51 `Verif.Timeline.C51_jump_target`: propext, Quot.sound
* C51 `Verif.Timeline.C51_loop`: propext, Classical.choice, Quot.sound
* C51 `Verif.Timeline.C51_terminates`: propext, Classical.choice, Quot.sound
* C51 `Verif.Timeline.C51_reset`: propext, Classical.choice, Quot.sound
* C51 `Verif.Timeline.C51_nested_witness`: propext, Classical.choice, Quot.sound
* C52 `Verif.Timeline.C52_insert_partial`: propext, Classical.choice, Quot.sound
* C52 `Verif.Timeline.C52_append`: propext, Quot.sound
* C52 `Verif.Timeline.C52_insert_null`: propext, Classical.choice, Quot.sound
* C52 `Verif.Timeline.C52_append_finished`: propext, Classical.choice, Quot.sound
* C52 `Verif.Timeline.C52_insert_before`: propext, Classical.choice, Quot.sound
* C52 `Verif.Timeline.C52_runs_twice_witness`: propext, Classical.choice, Quot.sound
* C53 `Verif.Timeline.C53_update`: propext, Classical.choice, Quot.sound
* C53 `Verif.Timeline.C53_update_ok`: propext, Classical.choice, Quot.sound
* C53 `Verif.Timeline.C53_create`: propext, Classical.choice, Quot.sound
* C53 `Verif.Timeline.C53_restart_too_late_witness`: propext, Classical.choice, Quot.sound
* C54 `Verif.Ticker.C54_state`: propext, Classical.choice, Quot.sound
* C54 `Verif.Ticker.C54_tick_iff`: propext, Classical.choice, Quot.sound
* C54 `Verif.Ticker.C54_running`: propext, Quot.sound
* C54 `Verif.Ticker.C54_paused_partial`: propext, Classical.choice, Quot.sound
* C54 `Verif.Ticker.C54_paused_ticks`: propext, Classical.choice, Quot.sound
* C54 `Verif.Ticker.C54_overshoot_dropped`: propext, Classical.choice, Quot.sound
* C55 `Verif.Tmpl.C55_trailing_brace`: propext, Classical.choice, Quot.sound
* C55 `Verif.Tmpl.C55_unclosed`: propext, Classical.choice, Quot.sound
* C55 `Verif.Tmpl.C55_unclosed_section`: propext, Classical.choice, Quot.sound
* C55 `Verif.Tmpl.C55_last_brace`: propext, Quot.sound
* C55 `Verif.Tmpl.C55_expansion_partial`: propext, Classical.choice, Quot.sound
* C55 `Verif.Tmpl.C55_meaning_exists`: propext, Classical.choice, Quot.sound
* C55 `Verif.Tmpl.C55_meaning_unique`: propext, Classical.choice, Quot.sound
* C55 `Verif.Tmpl.C55_plain_partial`: propext, Classical.choice, Quot.sound
* C55 `Verif.Tmpl.C55_key_partial`: propext, Classical.choice, Quot.sound
* C55 `Verif.Tmpl.C55_section_partial`: propext, Classical.choice, Quot.sound
* C55 `Verif.Tmpl.C55_escape_partial`: propext, Classical.choice, Quot.sound
* C55 `Verif.Tmpl.C55_trailing_brace_witness`: propext, Classical.choice, Quot.sound
* C55 `Verif.Tmpl.C55_prefix_witness`: propext, Classical.choice, Quot.sound
* C55 `Verif.Tmpl.C55_only_contents_witness`: propext, Classical.choice, Quot.sound
* C55 `Verif.Tmpl.C55_unclosed_witness`: propext, Classical.choice, Quot.sound
* C55 `Verif.Tmpl.C55_last_brace_witness`: propext, Classical.choice, Quot.sound
* C55 `Verif.Tmpl.C55_value_root_witness`: propext, Classical.choice, Quot.sound
* C56 `Verif.Tmpl.C56_goes_round`: propext, Classical.choice, Quot.sound
* C56 `Verif.Tmpl.C56_own_key`: propext, Classical.choice, Quot.sound
* C56 `Verif.Tmpl.C56_ends_iff`: propext, Classical.choice, Quot.sound
* C56 `Verif.Tmpl.C56_fuel`: propext
* C56 `Verif.Tmpl.C56_diverges`: propext, Quot.sound
* C56 `Verif.Tmpl.C56_terminates_partial`: propext, Classical.choice, Quot.sound
* C56 `Verif.Tmpl.C56_plain_partial`: propext, Classical.choice, Quot.sound
* C56 `Verif.Tmpl.C56_pass_terminates`: propext, Quot.sound
* C56 `Verif.Tmpl.C56_nothing_found`: propext, Quot.sound
* C57 `Verif.Tmpl.C57_set_key`: propext, Classical.choice, Quot.sound
* C57 `Verif.Tmpl.C57_add_section`: propext, Classical.choice, Quot.sound
* C57 `Verif.Tmpl.C57_innermost_partial`: propext, Classical.choice, Quot.sound
* C57 `Verif.Tmpl.C57_unknown_key_partial`: propext, Classical.choice, Quot.sound
* C57 `Verif.Tmpl.C57_unknown_section_partial`: propext, Classical.choice, Quot.sound
* C57 `Verif.Tmpl.C57_parent_witness`: propext, Classical.choice, Quot.sound
* C58 `Verif.Args.C58_groups`: propext, Quot.sound
* C58 `Verif.Args.C58_groups_unique`: propext, Quot.sound
* C58 `Verif.Args.C58_example`: propext
* C59 `Verif.Mpl.C59_ends`: none
* C59 `Verif.Mpl.C59_insert_partial`: propext, Quot.sound
* C59 `Verif.Mpl.C59_insert_empty`: propext
* C59 `Verif.Mpl.C59_remove`: propext, Quot.sound
* C59 `Verif.Mpl.C59_insert_remove`: propext, Quot.sound
* C59 `Verif.Mpl.C59_access`: propext, Quot.sound
* C59 `Verif.Mpl.C59_va`: none
* C59 `Verif.Mpl.C59_filter`: propext
* C59 `Verif.Mpl.C59_search`: propext, Quot.sound
* C59 `Verif.Mpl.C59_all_partial`: propext, Quot.sound
* C59 `Verif.Mpl.C59_all_empty`: none
* C59 `Verif.Mpl.C59_unique`: propext, Quot.sound
* C59 `Verif.Mpl.C59_unique_unique`: propext, Quot.sound
* C59 `Verif.Mpl.C59_is_unique`: propext, Quot.sound
* C59 `Verif.Mpl.C59_slice_partial`: propext, Quot.sound
* C59 `Verif.Mpl.C59_slice_negative`: propext, Quot.sound
* C59 `Verif.Mpl.C59_idxs`: propext, Classical.choice, Quot.sound
* C59 `Verif.Mpl.C59_idxs_of`: propext, Classical.choice, Quot.sound
* C59 `Verif.Mpl.C59_replace_seq_partial`: propext, Classical.choice, Quot.sound
* C59 `Verif.Mpl.C59_replace_seq_overlap`: propext, Classical.choice, Quot.sound
* C59 `Verif.Mpl.C59_replace`: propext, Classical.choice, Quot.sound
* C59 `Verif.Mpl.C59_replaced_unique`: propext
* C60 `Verif.Easing.C60_midpoint_partial`: propext, Classical.choice, Quot.sound
* C60 `Verif.Easing.C60_cubic_jump`: propext, Classical.choice, Quot.sound
* C60 `Verif.Easing.C60_circ_jump`: propext, Classical.choice, Quot.sound
* C60 `Verif.Easing.C60_zero_duration`: propext, Classical.choice, Quot.sound
* C60 `Verif.Easing.C60_zero_duration_release`: propext, Classical.choice, Quot.sound
* C60 `Verif.Easing.C60_start_partial`: propext, Classical.choice, Quot.sound
* C60 `Verif.Easing.C60_bounce_negative`: propext, Classical.choice, Quot.sound
* C60 `Verif.Easing.C60_end_partial`: propext, Classical.choice, Quot.sound
* C60 `Verif.Easing.C60_cubic_end`: propext, Classical.choice, Quot.sound
* C60 `Verif.Easing.C60_sine_error`: propext, Classical.choice, Quot.sound
* C61 `Verif.Easing.C61_map_partial`: propext, Classical.choice, Quot.sound
* C61 `Verif.Easing.C61_eased_partial`: propext, Classical.choice, Quot.sound
* C61 `Verif.Easing.C61_wrong`: propext, Classical.choice, Quot.sound
* C61 `Verif.Easing.C61_wrong_witness`: propext, Classical.choice, Quot.sound
* C62 `Verif.Stringify.C62_shown_linux`: propext, Quot.sound
* C62 `Verif.Stringify.C62_text_partial`: propext, Quot.sound
* C62 `Verif.Stringify.C62_toStr_partial`: propext, Quot.sound
* C62 `Verif.Stringify.C62_text_linux`: propext, Quot.sound
* C62 `Verif.Stringify.C62_toStr_linux`: propext, Quot.sound
* C62 `Verif.Stringify.C62_linux_wrong`: propext, Quot.sound
* C62 `Verif.Stringify.C62_linux_witness`: propext, Classical.choice, Quot.sound
* C63 `Verif.Recycler.C63_released_block_is_reused`: propext, Classical.choice, Quot.sound
* C64 `Verif.Container.C64_equality_is_extensional`: propext, Classical.choice, Quot.sound
* C65 `Verif.Base64.C65_decode_any_text`: propext, Classical.choice, Quot.sound
* C65 `Verif.Base64.C65_rest_ignored`: propext, Classical.choice, Quot.sound
* C66 `Verif.Str.C66_replace_self`: propext, Classical.choice, Quot.sound
* C66 `Verif.Str.C66_replace_by_self`: propext, Classical.choice, Quot.sound
* C66 `Verif.Str.C66_replace_first`: propext, Classical.choice, Quot.sound
* C66 `Verif.Str.C66_first_exists`: propext, Classical.choice, Quot.sound
* C67 `Verif.Num.C67_sign`: propext, Classical.choice, Quot.sound
* C68 `Verif.Num.C68_getMap`: propext, Classical.choice, Quot.sound
* C69 `Verif.Path.C69_less_partial`: propext, Classical.choice, Quot.sound
* C69 `Verif.Path.C69_equality_never_returns`: none
* C70 `Verif.Path.C70_case_partial`: propext, Classical.choice, Quot.sound
* C70 `Verif.Path.C70_not_ascii`: propext, Classical.choice, Quot.sound
* C70 `Verif.Path.C70_has_extension_partial`: propext, Classical.choice, Quot.sound
* C71 `Verif.Path.C71_expand_partial`: propext, Classical.choice, Quot.sound
* C71 `Verif.Path.C71_endless`: propext, Classical.choice, Quot.sound
* C72 `Verif.Timeline.C72_stop`: propext, Quot.sound
* C72 `Verif.Timeline.C72_jump_off_by_one`: propext, Quot.sound
* C72 `Verif.Timeline.C72_jump_outside`: propext, Quot.sound
* C72 `Verif.Timeline.C72_reset_skips_first`: propext, Quot.sound
* C73 `Verif.CmdLine.C73_never_reset`: propext, Classical.choice, Quot.sound
* C73 `Verif.CmdLine.C73_again_partial`: propext, Classical.choice, Quot.sound
* C73 `Verif.CmdLine.C73_required_partial`: propext, Classical.choice, Quot.sound
* C73 `Verif.CmdLine.C73_stays_witness`: propext, Classical.choice, Quot.sound
* C74 `Verif.CmdLine.C74_ends`: propext, Classical.choice, Quot.sound
* C74 `Verif.CmdLine.C74_dies`: propext, Classical.choice, Quot.sound
* C74 `Verif.CmdLine.C74_throws_partial`: propext, Classical.choice, Quot.sound
* C74 `Verif.CmdLine.C74_float_witness`: propext, Classical.choice, Quot.sound
* C75 `Verif.CmdLine.C75_one_value`: propext, Classical.choice, Quot.sound
* C75 `Verif.CmdLine.C75_decimal`: propext, Classical.choice, Quot.sound
* C75 `Verif.CmdLine.C75_garbage_witness`: propext, Classical.choice, Quot.sound
* C75 `Verif.CmdLine.C75_bool`: propext, Classical.choice, Quot.sound
* C75 `Verif.CmdLine.C75_float`: propext, Classical.choice, Quot.sound
* C75 `Verif.CmdLine.C75_float_example`: propext, Classical.choice, Quot.sound
* C75 `Verif.CmdLine.C75_float_refused`: propext, Classical.choice, Quot.sound
* C75 `Verif.CmdLine.C75_held`: propext, Classical.choice, Quot.sound
* C76 `Verif.Args.C76_data_partial`: propext, Quot.sound
* C76 `Verif.Args.C76_for_partial`: propext, Quot.sound
* C76 `Verif.Args.C76_rows_unique`: propext, Quot.sound
* C76 `Verif.Args.C76_empty_tuple`: propext, Quot.sound
* C76 `Verif.Args.C76_example`: propext
* C77 `Verif.Args.C77_explode_partial`: propext, Quot.sound
* C77 `Verif.Args.C77_explode_throw`: propext, Quot.sound
* C77 `Verif.Args.C77_idx_of`: propext, Classical.choice, Quot.sound
* C77 `Verif.Args.C77_repeat`: propext
* C77 `Verif.Args.C77_example`: propext
* C78 `Verif.Args.C78_min`: propext, Quot.sound
* C78 `Verif.Args.C78_max`: propext, Quot.sound
* C78 `Verif.Args.C78_example`: none
* C79 `Verif.Easing.C79_mirror`: propext, Classical.choice, Quot.sound
* C80 `Verif.Easing.C80_halves_partial`: propext, Classical.choice, Quot.sound
* C80 `Verif.Easing.C80_cubic`: propext, Classical.choice, Quot.sound
* C81 `Verif.Easing.C81_between`: propext, Classical.choice, Quot.sound
* C81 `Verif.Easing.C81_between_inout_partial`: propext, Classical.choice, Quot.sound
* C81 `Verif.Easing.C81_cubic_witness`: propext, Classical.choice, Quot.sound
* C82 `Verif.Stringify.C82_shown`: propext, Quot.sound
* C82 `Verif.Stringify.C82_element`: propext, Quot.sound
* C82 `Verif.Stringify.C82_witness`: propext, Classical.choice, Quot.sound
* C83 `Verif.Stringify.C83_null_pointer`: propext, Quot.sound
* C83 `Verif.Stringify.C83_null_pointer_wrong`: propext, Quot.sound
* C83 `Verif.Stringify.C83_pointer_partial`: propext, Quot.sound
* C84 `Verif.Log.C84_log_partial`: propext, Quot.sound
* C84 `Verif.Log.C84_log_linux`: propext, Quot.sound
* C84 `Verif.Log.C84_log_linux_wrong`: propext, Quot.sound
* C85 `Verif.Log.C85_suppressed_partial`: propext
* C85 `Verif.Log.C85_endl`: propext, Classical.choice, Quot.sound
* C85 `Verif.Log.C85_manip`: none
* C85 `Verif.Log.C85_resume`: propext, Quot.sound
* C86 `Verif.Log.C86_console`: propext, Classical.choice, Quot.sound
* C86 `Verif.Log.C86_distinct`: propext, Classical.choice, Quot.sound
* C86 `Verif.Log.C86_witness`: propext, Quot.sound
* C87 `Verif.Angle.Fp.C87_ieee_deg`: propext, Classical.choice, Quot.sound
* C87 `Verif.Angle.Fp.C87_ieee_rad`: propext, Classical.choice, Quot.sound
* C87 `Verif.Angle.Fp.C87_ieee_special`: propext, Classical.choice, Quot.sound
* C87 `Verif.Angle.Fp.C87_ieee_full_turn`: propext, Classical.choice, Quot.sound
* C87 `Verif.Angle.Fp.C87_ieee_full_turn_example`: propext, Classical.choice, Quot.sound
* C87 `Verif.Angle.C87_error`: propext, Classical.choice, Quot.sound
* C87 `Verif.Angle.C87_deg`: propext, Classical.choice, Quot.sound
* C87 `Verif.Angle.C87_rad`: propext, Classical.choice, Quot.sound
* C87 `Verif.Angle.C87_deg_rounded_partial`: propext, Classical.choice, Quot.sound
* C87 `Verif.Angle.C87_rad_rounded_partial`: propext, Classical.choice, Quot.sound
* C87 `Verif.Angle.C87_deg_full_turn`: propext, Classical.choice, Quot.sound
* C87 `Verif.Angle.C87_idempotent`: propext, Classical.choice, Quot.sound
* C87 `Verif.Angle.C87_fails_rounded`: propext, Classical.choice, Quot.sound
* C88 `Verif.Angle.Fp.C88_ieee`: propext, Classical.choice, Quot.sound
* C88 `Verif.Angle.Fp.C88_ieee_far`: propext, Classical.choice, Quot.sound
* C88 `Verif.Angle.Fp.C88_ieee_wide`: propext, Classical.choice, Quot.sound
* C88 `Verif.Angle.Fp.C88_ieee_example`: propext, Classical.choice, Quot.sound
* C88 `Verif.Angle.C88_error`: propext, Classical.choice, Quot.sound
* C88 `Verif.Angle.C88_exact`: propext, Classical.choice, Quot.sound
* C88 `Verif.Angle.C88_fixed`: propext, Classical.choice, Quot.sound
* C88 `Verif.Angle.C88_empty`: propext, Classical.choice, Quot.sound
* C89 `Verif.Angle.Fp.C89_ieee_deg`: propext, Classical.choice, Quot.sound
* C89 `Verif.Angle.Fp.C89_ieee_rad`: propext, Classical.choice, Quot.sound
* C89 `Verif.Angle.Fp.C89_ieee_nan`: propext, Classical.choice, Quot.sound
* C89 `Verif.Angle.Fp.C89_ieee_nan_example`: propext, Classical.choice, Quot.sound
* C89 `Verif.Angle.C89_deg_error`: propext, Classical.choice, Quot.sound
* C89 `Verif.Angle.C89_rad_error`: propext, Classical.choice, Quot.sound
* C89 `Verif.Angle.C89_rad_error_example`: propext, Classical.choice, Quot.sound
* C89 `Verif.Angle.C89_deg`: propext, Classical.choice, Quot.sound
* C89 `Verif.Angle.C89_rad`: propext, Classical.choice, Quot.sound
* C89 `Verif.Angle.C89_dist_facts`: propext, Classical.choice, Quot.sound
* C89 `Verif.Angle.C89_deg_rounded_partial`: propext, Classical.choice, Quot.sound
* C90 `Verif.Angle.Fp.C90_ieee`: propext, Classical.choice, Quot.sound
* C90 `Verif.Angle.Fp.C90_ieee_special`: propext, Classical.choice, Quot.sound
* C90 `Verif.Angle.Fp.C90_ieee_example`: propext, Classical.choice, Quot.sound
* C90 `Verif.Angle.C90_deg_error`: propext, Classical.choice, Quot.sound
* C90 `Verif.Angle.C90_deg`: propext, Classical.choice, Quot.sound
* C90 `Verif.Angle.C90_reaches`: propext, Classical.choice, Quot.sound
* C90 `Verif.Angle.C90_rad_fails`: propext, Classical.choice, Quot.sound
* C90 `Verif.Angle.C90_rad_partial`: propext, Classical.choice, Quot.sound
* C91 `Verif.Angle.Fp.C91_ieee_manhattan`: propext, Classical.choice, Quot.sound
* C91 `Verif.Angle.Fp.C91_ieee_chebyshev`: propext, Classical.choice, Quot.sound
* C91 `Verif.Angle.Fp.C91_ieee_squared_partial`: propext, Classical.choice, Quot.sound
* C91 `Verif.Angle.Fp.C91_ieee_euclid_partial`: propext, Classical.choice, Quot.sound
* C91 `Verif.Angle.Fp.C91_ieee_underflow`: propext, Classical.choice, Quot.sound
* C91 `Verif.Angle.Fp.C91_ieee_overflow`: propext, Classical.choice, Quot.sound
* C91 `Verif.Angle.Fp.C91_ieee_example`: propext, Classical.choice, Quot.sound
* C91 `Verif.Angle.C91_error`: propext, Classical.choice, Quot.sound
* C91 `Verif.Angle.C91_zero_rounded`: propext, Classical.choice, Quot.sound
* C91 `Verif.Angle.C91_triangle_rounded`: propext, Classical.choice, Quot.sound
* C91 `Verif.Angle.C91_manhattan`: propext, Classical.choice, Quot.sound
* C91 `Verif.Angle.C91_chebyshev`: propext, Classical.choice, Quot.sound
* C91 `Verif.Angle.C91_euclidean`: propext, Classical.choice, Quot.sound
* C91 `Verif.Angle.C91_squared`: propext, Classical.choice, Quot.sound
* C91 `Verif.Angle.C91_axis`: propext, Classical.choice, Quot.sound
* C91 `Verif.Angle.C91_order`: propext, Classical.choice, Quot.sound
* C91 `Verif.Angle.C91_rounded_partial`: propext, Classical.choice, Quot.sound
* C92 `Verif.Angle.Fp.C92_ieee_lerp`: propext, Classical.choice, Quot.sound
* C92 `Verif.Angle.Fp.C92_ieee_lerp_overflow`: propext, Classical.choice, Quot.sound
* C92 `Verif.Angle.Fp.C92_ieee_map_partial`: propext, Classical.choice, Quot.sound
* C92 `Verif.Angle.Fp.C92_ieee_map_ends`: propext, Classical.choice, Quot.sound
* C92 `Verif.Angle.Fp.C92_ieee_example`: propext, Classical.choice, Quot.sound
* C92 `Verif.Angle.C92_lerp_error`: propext, Classical.choice, Quot.sound
* C92 `Verif.Angle.C92_map_error`: propext, Classical.choice, Quot.sound
* C92 `Verif.Angle.C92_lerp`: propext, Classical.choice, Quot.sound
* C92 `Verif.Angle.C92_lerp_assert`: propext, Classical.choice, Quot.sound
* C92 `Verif.Angle.C92_lerp_rounded_partial`: propext, Classical.choice, Quot.sound
* C92 `Verif.Angle.C92_map`: propext, Classical.choice, Quot.sound
* C92 `Verif.Angle.C92_map_empty`: propext, Classical.choice, Quot.sound
* C92 `Verif.Angle.C92_map_rounded_partial`: propext, Classical.choice, Quot.sound
* C93 `Verif.Angle.Fp.C93_ieee`: propext, Classical.choice, Quot.sound
* C93 `Verif.Angle.Fp.C93_ieee_example`: propext, Classical.choice, Quot.sound
* C93 `Verif.Angle.C93_units_rounded`: propext, Classical.choice, Quot.sound
* C93 `Verif.Angle.C93_error_rounded`: propext, Classical.choice, Quot.sound
* C93 `Verif.Angle.C93_towards_rounded`: propext, Classical.choice, Quot.sound
* C93 `Verif.Angle.C93_towards_deg_rounded`: propext, Classical.choice, Quot.sound
* C93 `Verif.Angle.C93_units`: propext, Classical.choice, Quot.sound
* C93 `Verif.Angle.C93_half_turn`: propext, Classical.choice, Quot.sound
* C93 `Verif.Angle.C93_error`: propext, Classical.choice, Quot.sound
* C93 `Verif.Angle.C93_towards_rad`: propext, Classical.choice, Quot.sound
* C93 `Verif.Angle.C93_towards_deg`: propext, Classical.choice, Quot.sound
* C94 `Verif.Pcg.C94_sixteen_bits`: propext, Quot.sound
* C94 `Verif.Pcg.C94_sixteen_bits_safe_partial`: propext, Classical.choice, Quot.sound
* C94 `Verif.Pcg.C94_advance`: propext, Classical.choice, Quot.sound
* C94 `Verif.Pcg.C94_discard`: propext, Classical.choice, Quot.sound
* C94 `Verif.Pcg.C94_add`: propext, Classical.choice, Quot.sound
* C95 `Verif.Pcg.C95_period`: propext, Classical.choice, Quot.sound
* C95 `Verif.Pcg.C95_period_pow2`: propext
* C95 `Verif.Pcg.C95_init`: propext, Classical.choice, Quot.sound
* C95 `Verif.Pcg.C95_all_states`: propext, Classical.choice, Quot.sound
* C95 `Verif.Pcg.C95_wrapped`: propext, Classical.choice, Quot.sound
* C95 `Verif.Pcg.C95_engines`: propext, Classical.choice, Quot.sound
* C95 `Verif.Pcg.C95_streams`: propext, Classical.choice, Quot.sound
* C96 `Verif.Pcg.C96_sixteen_bits_backstep`: propext, Quot.sound
* C96 `Verif.Pcg.C96_sixteen_bits_minus`: propext, Classical.choice, Quot.sound
* C96 `Verif.Pcg.C96_sixteen_bits`: propext, Classical.choice, Quot.sound
* C96 `Verif.Pcg.C96_minus`: propext, Classical.choice, Quot.sound
* C96 `Verif.Pcg.C96_minus_advance`: propext, Classical.choice, Quot.sound
* C96 `Verif.Pcg.C96_backstep`: propext, Classical.choice, Quot.sound
* C97 `Verif.Pcg.C97_first`: propext, Quot.sound
* C97 `Verif.Pcg.C97_range`: propext, Quot.sound
* C97 `Verif.Pcg.C97_zero`: propext
* C97 `Verif.Pcg.C97_uniform`: propext, Classical.choice, Quot.sound
* C97 `Verif.Pcg.C97_reject`: propext, Classical.choice, Quot.sound
* C97 `Verif.Pcg.C97_terminates`: propext, Classical.choice, Quot.sound
* C97 `Verif.Pcg.C97_engine`: propext, Classical.choice, Quot.sound
* C97 `Verif.Pcg.C97_engine_once`: propext, Classical.choice, Quot.sound
* C98 `Verif.Pcg.C98_perm`: propext, Quot.sound
* C98 `Verif.Pcg.C98_defined`: propext, Quot.sound
* C98 `Verif.Pcg.C98_terminates`: propext, Classical.choice, Quot.sound
* C98 `Verif.Pcg.C98_long`: propext, Quot.sound
* C98 `Verif.Pcg.C98_truncated`: propext, Quot.sound
* C98 `Verif.Pcg.C98_uniform`: propext, Classical.choice, Quot.sound
* C98 `Verif.Pcg.C98_count`: propext, Classical.choice, Quot.sound
* C98 `Verif.Pcg.C98_engine`: propext, Classical.choice, Quot.sound
* C98 `Verif.Pcg.C98_engine_once`: propext, Classical.choice, Quot.sound
* C99 `Verif.Pcg.C99_equidistributed`: propext, Classical.choice, Quot.sound
* C99 `Verif.Pcg.C99_pcg32_fast`: propext, Classical.choice, Quot.sound
* C99 `Verif.Pcg.C99_pcg32`: propext, Classical.choice, Quot.sound
* C99 `Verif.Pcg.C99_pcg64_fast`: propext, Classical.choice, Quot.sound
* C100 `Verif.Pcg.C100_unxorshift`: propext, Classical.choice, Quot.sound
* C100 `Verif.Pcg.C100_unoutput`: propext, Classical.choice, Quot.sound
* C100 `Verif.Pcg.C100_bijective`: propext, Classical.choice, Quot.sound
* C100 `Verif.Pcg.C100_once`: propext, Classical.choice, Quot.sound
* C100 `Verif.Pcg.C100_sixteen_bits`: propext, Classical.choice, Quot.sound
* C100 `Verif.Pcg.C100_sixteen_bits_unoutput`: propext, Quot.sound
* C100 `Verif.Pcg.C100_sixteen_bits_count`: propext, Classical.choice, Quot.sound
* C100 `Verif.Pcg.C100_sixteen_bits_draws`: propext, Classical.choice, Quot.sound
* C101 `Verif.Pcg.C101_words`: propext, Classical.choice, Quot.sound
* C101 `Verif.Pcg.C101_pieces`: propext, Classical.choice, Quot.sound
* C101 `Verif.Pcg.C101_seed`: propext, Classical.choice, Quot.sound
* C101 `Verif.Pcg.C101_seed_stream`: propext, Classical.choice, Quot.sound
* C101 `Verif.Pcg.C101_states`: propext, Classical.choice, Quot.sound
* C101 `Verif.Pcg.C101_streams`: propext, Classical.choice, Quot.sound
* C102 `Verif.Pcg.C102_roundtrip`: propext, Classical.choice, Quot.sound
* C102 `Verif.Pcg.C102_fail`: propext, Quot.sound
* C102 `Verif.Pcg.C102_parameters`: propext, Classical.choice, Quot.sound
* C102 `Verif.Pcg.C102_failed_stream`: propext, Quot.sound
* C102 `Verif.Pcg.C102_state_unchecked`: propext, Classical.choice, Quot.sound
* C103 `Verif.Util.C103_eraseRemoveIf`: propext, Classical.choice, Quot.sound
* C103 `Verif.Util.C103_eraseRemove`: propext, Classical.choice, Quot.sound
* C103 `Verif.Util.C103_alias_partial`: propext, Classical.choice, Quot.sound
* C103 `Verif.Util.C103_alias_overwritten`: propext, Classical.choice, Quot.sound
* C103 `Verif.Util.C103_alias_witness`: propext, Classical.choice, Quot.sound
* C104 `Verif.Util.C104_idxOf`: propext, Quot.sound
* C104 `Verif.Util.C104_contains`: propext, Classical.choice, Quot.sound
* C104 `Verif.Util.C104_containsAnyIf`: propext, Classical.choice, Quot.sound
* C104 `Verif.Util.C104_containsAnyOf`: propext, Classical.choice, Quot.sound
* C104 `Verif.Util.C104_containsAllOf`: propext, Classical.choice, Quot.sound
* C104 `Verif.Util.C104_getKeys`: propext, Quot.sound
* C105 `Verif.Util.C105_new`: propext, Quot.sound
* C105 `Verif.Util.C105_used`: propext, Quot.sound
* C105 `Verif.Util.C105_mkUnorderedMap`: propext, Quot.sound
* C105 `Verif.Util.C105_odd`: propext, Quot.sound
* C106 `Verif.Range.C106_asRange`: propext, Classical.choice, Quot.sound
* C106 `Verif.Range.C106_reverse`: propext, Quot.sound
* C106 `Verif.Range.C106_makeRange`: propext, Classical.choice, Quot.sound
* C106 `Verif.Range.C106_wrong_order`: propext, Quot.sound
* C106 `Verif.Range.C106_cast_addresses`: propext, Quot.sound
* C106 `Verif.Range.C106_cast_partial`: propext, Quot.sound
* C106 `Verif.Range.C106_cast_shifted`: propext, Quot.sound
* C106 `Verif.Range.C106_cast_null`: propext, Quot.sound
* C107 `Verif.Range.C107_reverse_moves`: propext, Classical.choice, Quot.sound
* C107 `Verif.Range.C107_reverse_compare`: propext, Classical.choice, Quot.sound
* C107 `Verif.Range.C107_moves`: propext, Classical.choice, Quot.sound
* C107 `Verif.Range.C107_moves_outside`: propext, Classical.choice, Quot.sound
* C107 `Verif.Range.C107_compare`: propext, Quot.sound
* C107 `Verif.Range.C107_prefix_result`: propext, Quot.sound
* C107 `Verif.Range.C107_postfix_wrong`: propext, Classical.choice, Quot.sound
* C107 `Verif.Range.C107_postfix_decrement_wrong`: propext, Classical.choice, Quot.sound
* C108 `Verif.Range.C108_forArrAs`: propext, Quot.sound
* C108 `Verif.Range.C108_forObjAs`: propext, Quot.sound
* C108 `Verif.Range.C108_other_type`: propext
* C108 `Verif.Range.C108_unchecked`: propext
* C108 `Verif.Range.C108_plain`: propext, Quot.sound
* C108 `Verif.Range.C108_vector_partial`: propext, Classical.choice, Quot.sound
* C108 `Verif.Range.C108_throwing_element`: propext, Classical.choice, Quot.sound
* C108 `Verif.Range.C108_sizes`: propext, Quot.sound
* C108 `Verif.Range.C108_mkArr`: propext, Quot.sound
* C109 `Verif.Bench.C109_inside`: propext, Classical.choice, Quot.sound
* C109 `Verif.Bench.C109_nested_partial`: propext, Classical.choice, Quot.sound
* C109 `Verif.Bench.C109_program_partial`: propext, Classical.choice, Quot.sound
* C109 `Verif.Bench.C109_late_blank`: propext, Classical.choice, Quot.sound
* C109 `Verif.Bench.C109_none_running`: Quot.sound
* C109 `Verif.Bench.C109_without_groups`: propext, Quot.sound
* C110 `Verif.Bench.C110_first_pause`: propext, Classical.choice, Quot.sound
* C110 `Verif.Bench.C110_first_total`: propext, Classical.choice, Quot.sound
* C110 `Verif.Bench.C110_independent`: propext, Quot.sound
* C110 `Verif.Bench.C110_total_partial`: propext, Classical.choice, Quot.sound
* C110 `Verif.Bench.C110_out_of_turn`: propext
* C111 `Verif.Bench.C111_end_data`: propext, Classical.choice, Quot.sound
* C111 `Verif.Bench.C111_text_partial`: propext, Classical.choice, Quot.sound
* C112 `Verif.JsonConv.C112_round_trip_partial`: propext, Classical.choice, Quot.sound
* C112 `Verif.JsonConv.C112_overwrites_partial`: propext, Classical.choice, Quot.sound
* C112 `Verif.JsonConv.C112_array_layout`: propext, Classical.choice, Quot.sound
* C112 `Verif.JsonConv.C112_object_layout`: propext, Classical.choice, Quot.sound
* C112 `Verif.JsonConv.C112_object_read`: propext, Classical.choice, Quot.sound
* C112 `Verif.JsonConv.C112_array_read`: propext, Quot.sound
* C112 `Verif.JsonConv.C112_same_name`: propext, Classical.choice, Quot.sound
* C113 `Verif.Casts.C113_toNum`: propext, Classical.choice, Quot.sound
* C113 `Verif.Casts.C113_enum`: propext
* C113 `Verif.Casts.C113_sToInt`: propext, Classical.choice, Quot.sound
* C113 `Verif.Casts.C113_sToSizeT`: propext, Classical.choice, Quot.sound
* C113 `Verif.Casts.C113_int_round_trip`: propext, Classical.choice, Quot.sound
* C113 `Verif.Casts.C113_size_round_trip_partial`: propext, Classical.choice, Quot.sound
* C113 `Verif.Casts.C113_large_size_terminates`: propext, Classical.choice, Quot.sound
* C113 `Verif.Casts.C113_not_only_numbers`: propext
* C114 `Verif.Casts.C114_range_partial`: propext, Classical.choice, Quot.sound
* C114 `Verif.Casts.C114_covers_partial`: propext, Classical.choice, Quot.sound
* C114 `Verif.Casts.C114_wrong_order`: propext, Classical.choice, Quot.sound
* C114 `Verif.Casts.C114_small_types_rejected`: propext
* C114 `Verif.Casts.C114_mixed_signs_fail`: propext
* C114 `Verif.Casts.C114_sign_partial`: propext, Classical.choice, Quot.sound
* C114 `Verif.Casts.C114_sign_covers`: propext, Classical.choice, Quot.sound
* C114 `Verif.Casts.C114_sign_unsigned_fails`: propext, Classical.choice, Quot.sound
* C115 `Verif.CmdLine.C115_help_text_partial`: propext, Classical.choice, Quot.sound
* C115 `Verif.CmdLine.C115_every_element_partial`: propext, Classical.choice, Quot.sound
* C115 `Verif.CmdLine.C115_interleaving`: propext, Classical.choice, Quot.sound
* C115 `Verif.CmdLine.C115_large_pack_fails`: propext, Classical.choice, Quot.sound
* C115 `Verif.CmdLine.C115_names`: propext, Classical.choice, Quot.sound
* C115 `Verif.CmdLine.C115_group_partial`: propext, Classical.choice, Quot.sound
* C116 `Verif.U128.C116_add`: propext, Classical.choice, Quot.sound
* C116 `Verif.U128.C116_sub`: propext, Classical.choice, Quot.sound
* C116 `Verif.U128.C116_neg`: propext, Classical.choice, Quot.sound
* C116 `Verif.U128.C116_mul_partial`: propext, Classical.choice, Quot.sound
* C116 `Verif.U128.C116_mul_wide_fails`: propext
* C116 `Verif.U128.C116_bitwise`: propext, Classical.choice, Quot.sound
* C116 `Verif.U128.C116_order`: propext, Classical.choice, Quot.sound
* C116 `Verif.U128.C116_faithful`: propext, Quot.sound
* C116 `Verif.U128.C116_convert`: propext, Classical.choice, Quot.sound
* C116 `Verif.U128.C116_read`: propext, Classical.choice, Quot.sound
* C116 `Verif.U128.C116_negative`: propext, Classical.choice, Quot.sound
* C116 `Verif.U128.C116_lcg_step`: propext, Classical.choice, Quot.sound
* C117 `Verif.U128.C117_left`: propext, Classical.choice, Quot.sound
* C117 `Verif.U128.C117_right_partial`: propext, Classical.choice, Quot.sound
* C117 `Verif.U128.C117_right_ub`: propext, Classical.choice, Quot.sound
* C118 `Verif.U128.C118_divmod`: propext, Classical.choice, Quot.sound
* C118 `Verif.U128.C118_by_zero`: propext, Quot.sound
* C119 `Verif.U128.C119_flog2`: propext, Classical.choice, Quot.sound
* C119 `Verif.U128.C119_flog2_portable`: propext, Classical.choice, Quot.sound
* C119 `Verif.U128.C119_flog2_portable64`: propext, Classical.choice, Quot.sound
* C119 `Verif.U128.C119_trailing`: propext, Classical.choice, Quot.sound
* C119 `Verif.U128.C119_trailing_portable`: propext, Classical.choice, Quot.sound
* C119 `Verif.U128.C119_trailing_portable64`: propext, Classical.choice, Quot.sound
* C119 `Verif.U128.C119_clog2`: propext, Classical.choice, Quot.sound
* C119 `Verif.U128.C119_clog2_wide`: propext, Classical.choice, Quot.sound
* C119 `Verif.U128.C119_clog2_wider_partial`: propext, Classical.choice, Quot.sound
* C119 `Verif.U128.C119_clog2_wider_fails`: propext
* C119 `Verif.U128.C119_zero`: propext, Quot.sound
* C119 `Verif.U128.C119_zero_portable`: propext, Quot.sound
* C120 `Verif.JsonFmt.C120_pretty_layout`: propext, Classical.choice, Quot.sound
* C120 `Verif.JsonFmt.C120_minified`: propext, Classical.choice, Quot.sound
* C120 `Verif.JsonFmt.C120_no_other_text`: propext, Classical.choice, Quot.sound
* C121 `Verif.JsonFmt.C121_without_colours`: propext, Classical.choice, Quot.sound
* C121 `Verif.JsonFmt.C121_same_text`: propext, Classical.choice, Quot.sound
* C121 `Verif.JsonFmt.C121_colours_partial`: propext, Classical.choice, Quot.sound
* C121 `Verif.JsonFmt.C121_no_colours_right_to_left`: propext, Classical.choice, Quot.sound
* C121 `Verif.JsonFmt.C121_commas_in_objects`: propext, Classical.choice, Quot.sound
* C122 `Verif.JsonConv.C122_mismatch_is_caught_partial`: propext, Classical.choice, Quot.sound
* C122 `Verif.JsonConv.C122_as_is_caught_partial`: propext, Classical.choice, Quot.sound
* C122 `Verif.JsonConv.C122_basic_kinds`: propext, Quot.sound
* C122 `Verif.JsonConv.C122_integer_kind`: propext, Classical.choice, Quot.sound
* C122 `Verif.JsonConv.C122_not_caught`: propext, Quot.sound
* C122 `Verif.JsonConv.C122_unchecked_mismatch`: propext, Quot.sound
* C122 `Verif.JsonConv.C122_user_types_are_caught_partial`: propext, Classical.choice, Quot.sound
* C122 `Verif.JsonConv.C122_vector_check`: propext, Quot.sound
* C123 `Verif.Timeline.C123_position_partial`: propext, Classical.choice, Quot.sound
* C123 `Verif.Timeline.C123_ambiguous`: propext, Classical.choice, Quot.sound
* C123 `Verif.Timeline.C123_outside`: propext, Quot.sound
* C123 `Verif.Timeline.C123_clear`: propext, Classical.choice, Quot.sound
* C124 `Verif.Path.C124_read_twice`: propext, Classical.choice, Quot.sound
* C124 `Verif.Path.C124_forgets`: propext, Classical.choice, Quot.sound
* C124 `Verif.Path.C124_append_partial`: propext, Classical.choice, Quot.sound
* C124 `Verif.Path.C124_reads_matter`: propext, Classical.choice, Quot.sound
* C124 `Verif.Path.C124_stale`: propext, Classical.choice, Quot.sound
* C125 `Verif.Json.C125_emplace`: propext, Quot.sound
* C125 `Verif.Json.C125_set`: propext
* C125 `Verif.Json.C125_outside`: propext
* C125 `Verif.Json.C125_not_an_array`: propext
* C125 `Verif.Json.C125_get_if_has`: propext, Quot.sound
* C125 `Verif.Json.C125_get_if_has_key`: propext, Classical.choice, Quot.sound
* C126 `Verif.RecVec.C126_ownership_partial`: propext, Classical.choice, Quot.sound
* C126 `Verif.RecVec.C126_all_freed_partial`: propext, Classical.choice, Quot.sound
* C126 `Verif.RecVec.C126_references_partial`: propext, Classical.choice, Quot.sound
* C126 `Verif.RecVec.C126_mono_move_dangles`: propext, Quot.sound
* C126 `Verif.RecVec.C126_fixed_move_dangles`: propext, Quot.sound
* C126 `Verif.RecVec.C126_throw_leaks`: propext, Quot.sound
* C127 `Verif.PcgExt.C127_families`: propext, Classical.choice, Quot.sound
* C127 `Verif.PcgExt.C127_library`: propext, Classical.choice, Quot.sound
* C127 `Verif.PcgExt.C127_claim_wrong`: propext, Classical.choice, Quot.sound
* C127 `Verif.PcgExt.C127_zip_files`: propext, Classical.choice, Quot.sound
* C127 `Verif.PcgExt.C127_defined`: propext, Classical.choice, Quot.sound
* C127 `Verif.PcgExt.C127_equidistributed`: propext, Classical.choice, Quot.sound
* C127 `Verif.PcgExt.C127_frequency`: propext, Classical.choice, Quot.sound
* C128 `Verif.PcgExt.C128_library`: propext, Classical.choice, Quot.sound
* C128 `Verif.PcgExt.C128_documented`: propext, Quot.sound
* C128 `Verif.PcgExt.C128_period_narrow`: propext, Classical.choice, Quot.sound
* C128 `Verif.PcgExt.C128_period_wide`: propext, Classical.choice, Quot.sound
* C128 `Verif.PcgExt.C128_claim_wrong`: propext, Classical.choice, Quot.sound
* C128 `Verif.PcgExt.C128_period_fixed`: propext, Classical.choice, Quot.sound
* C128 `Verif.PcgExt.C128_stuck`: propext, Classical.choice, Quot.sound
* C128 `Verif.PcgExt.C128_visits`: propext, Classical.choice, Quot.sound
* C129 `Verif.PcgExt.C129_advance_iff`: propext, Classical.choice, Quot.sound
* C129 `Verif.PcgExt.C129_advance_narrow_iff`: propext, Classical.choice, Quot.sound
* C129 `Verif.PcgExt.C129_backstep_partial`: propext, Classical.choice, Quot.sound
* C129 `Verif.PcgExt.C129_backstep_misses_tick`: propext, Classical.choice, Quot.sound
* C129 `Verif.PcgExt.C129_backstep_quiet`: propext, Classical.choice, Quot.sound
* C129 `Verif.PcgExt.C129_backstep_extra_tick`: propext, Classical.choice, Quot.sound
* C130 `Verif.PcgExt.C130_roundtrip`: propext, Classical.choice, Quot.sound
* C130 `Verif.PcgExt.C130_read`: propext, Classical.choice, Quot.sound
* C130 `Verif.PcgExt.C130_unique_unreadable`: propext, Classical.choice, Quot.sound
* C130 `Verif.PcgExt.C130_read_c_variants`: propext, Quot.sound
* C130 `Verif.PcgExt.C130_eq`: propext
* C130 `Verif.PcgExt.C130_ne_diverges`: none
* C130 `Verif.PcgExt.C130_seed`: propext, Classical.choice, Quot.sound
* C130 `Verif.PcgExt.C130_seed_order`: propext, Classical.choice, Quot.sound
* C130 `Verif.PcgExt.C130_table`: propext, Classical.choice, Quot.sound
* C130 `Verif.PcgExt.C130_seq`: propext, Classical.choice, Quot.sound
* C130 `Verif.PcgExt.C130_typedefs`: propext, Quot.sound
* C130 `Verif.PcgExt.C130_set`: propext, Classical.choice, Quot.sound
* C130 `Verif.PcgExt.C130_plant`: propext, Classical.choice, Quot.sound
* C131 `Verif.Files.C131_read_back_object`: propext, Classical.choice, Quot.sound
* C131 `Verif.Files.C131_read`: propext, Classical.choice, Quot.sound
* C131 `Verif.Files.C131_read_back`: propext, Classical.choice, Quot.sound
* C131 `Verif.Files.C131_failure_is_silent`: propext, Classical.choice, Quot.sound
* C131 `Verif.Files.C131_missing`: propext, Classical.choice, Quot.sound
* C131 `Verif.Files.C131_json`: propext, Classical.choice, Quot.sound
* C131 `Verif.Files.C131_log`: propext, Classical.choice, Quot.sound
* C131 `Verif.Files.C131_crash`: propext, Classical.choice, Quot.sound
* C131 `Verif.Files.C131_crash_loses_old_text`: propext, Classical.choice, Quot.sound
* C131 `Verif.Files.C131_kept`: propext, Classical.choice, Quot.sound
* C131 `Verif.Files.C131_crash_other_value`: propext, Classical.choice, Quot.sound
* C132 `Verif.Files.C132_tree`: propext, Classical.choice, Quot.sound
* C132 `Verif.Files.C132_create`: propext, Classical.choice, Quot.sound
* C132 `Verif.Files.C132_create_failure_is_silent`: propext, Classical.choice, Quot.sound
* C132 `Verif.Files.C132_remove_answers_false`: propext, Classical.choice, Quot.sound
* C132 `Verif.Files.C132_remove_failure_answers_true`: propext, Classical.choice, Quot.sound
* C132 `Verif.Files.C132_create_remove`: propext, Classical.choice, Quot.sound
* C133 `Verif.Files.C133_file_digest_partial`: propext, Classical.choice, Quot.sound
* C133 `Verif.Files.C133_bad_stream`: propext, Quot.sound
* C133 `Verif.Files.C133_two_gigabytes_throws`: propext, Quot.sound
* C133 `Verif.Files.C133_four_gigabytes_prefix`: propext, Classical.choice, Quot.sound
* C134 `Verif.Timeline.Edit.C134_order`: propext, Classical.choice, Quot.sound
* C134 `Verif.Timeline.Edit.C134_update`: propext, Classical.choice, Quot.sound
* C134 `Verif.Timeline.Edit.C134_returns`: propext, Classical.choice, Quot.sound
* C134 `Verif.Timeline.Edit.C134_self_append_never_returns`: propext, Classical.choice, Quot.sound
* C134 `Verif.Timeline.Edit.C134_insert_before_never_returns`: propext, Classical.choice, Quot.sound
* C134 `Verif.Timeline.Edit.C134_clear_is_undefined`: propext, Quot.sound
* C134 `Verif.Timeline.Edit.C134_conservative`: propext, Quot.sound
* C135 `Verif.Log.Threads.C135_atomic`: propext, Classical.choice, Quot.sound
* C135 `Verif.Log.Threads.C135_atomic_moment`: propext, Quot.sound
* C135 `Verif.Log.Threads.C135_log_atomic`: propext, Classical.choice, Quot.sound
* C135 `Verif.Log.Threads.C135_text`: propext, Classical.choice, Quot.sound
* C135 `Verif.Log.Threads.C135_no_deadlock`: propext, Classical.choice, Quot.sound
* C135 `Verif.Log.Threads.C135_ends`: propext
* C135 `Verif.Log.Threads.C135_every_order`: propext, Quot.sound
* C135 `Verif.Log.Threads.C135_title_stolen`: propext, Quot.sound
* C135 `Verif.Log.Threads.C135_manip_torn`: propext, Quot.sound
* C135 `Verif.Log.Threads.C135_nested_never_ends`: propext, Quot.sound
* C136 `Verif.IDist.C136_squared_signed`: propext, Classical.choice, Quot.sound
* C136 `Verif.IDist.C136_manhattan_signed`: propext, Classical.choice, Quot.sound
* C136 `Verif.IDist.C136_chebyshev_signed`: propext, Classical.choice, Quot.sound
* C136 `Verif.IDist.C136_squared_unsigned`: propext, Classical.choice, Quot.sound
* C136 `Verif.IDist.C136_unsigned_rejected`: propext
* C136 `Verif.IDist.C136_squared_narrow`: propext, Classical.choice, Quot.sound
* C136 `Verif.IDist.C136_others_narrow`: propext, Classical.choice, Quot.sound
* C136 `Verif.IDist.C136_small_types_fail`: propext, Classical.choice, Quot.sound
* C136 `Verif.IDist.C136_euclidean_signed`: propext, Classical.choice, Quot.sound
* C136 `Verif.IDist.C136_metric`: propext, Classical.choice, Quot.sound
* C136 `Verif.IDist.C136_squared_mixed`: propext, Classical.choice, Quot.sound
* C136 `Verif.IDist.C136_euclidean_example`: propext, Classical.choice, Quot.sound
* C136 `Verif.IDist.C136_rejected_iff`: propext, Classical.choice, Quot.sound
* C137 `Verif.Frame.Fp.C137_ieee`: propext, Classical.choice, Quot.sound
* C137 `Verif.Frame.Fp.C137_ieee_fps`: propext, Classical.choice, Quot.sound
* C137 `Verif.Frame.Fp.C137_ieee_special`: propext, Classical.choice, Quot.sound
* C137 `Verif.Frame.Fp.C137_ieee_round_trip`: propext, Classical.choice, Quot.sound
* C137 `Verif.Frame.Fp.C137_ieee_underflow`: propext, Classical.choice, Quot.sound
* C137 `Verif.Frame.Fp.C137_ieee_example`: propext, Classical.choice, Quot.sound
* C137 `Verif.Frame.C137_exact`: propext, Classical.choice, Quot.sound
* C137 `Verif.Frame.C137_rounded`: propext, Classical.choice, Quot.sound
* C137 `Verif.Frame.C137_integers`: propext, Classical.choice, Quot.sound
* C137 `Verif.Frame.C137_integers_round_trip`: propext, Classical.choice, Quot.sound
* C137 `Verif.Frame.C137_large_integers_fail`: propext, Classical.choice, Quot.sound
* C137 `Verif.Frame.C137_zero`: propext, Classical.choice, Quot.sound
* C137 `Verif.Frame.C137_example`: propext, Classical.choice, Quot.sound
* C138 `Verif.Manager.C138_history`: propext, Classical.choice, Quot.sound
* C138 `Verif.Manager.C138_refresh`: propext, Classical.choice, Quot.sound
* C138 `Verif.Manager.C138_refresh_no_room`: propext, Classical.choice, Quot.sound
* C138 `Verif.Manager.C138_lost_for_ever`: propext, Classical.choice, Quot.sound
* C138 `Verif.Manager.C138_clear`: propext, Classical.choice, Quot.sound
* C138 `Verif.Manager.C138_clear_no_room`: propext, Classical.choice, Quot.sound
* C138 `Verif.Manager.C138_conservative`: propext, Classical.choice, Quot.sound
* C138 `Verif.Manager.C138_delete_in_destructor`: propext
* C139 `Verif.Manager.C139_loop`: propext, Classical.choice, Quot.sound
* C139 `Verif.Manager.C139_stale`: propext, Classical.choice, Quot.sound
* C139 `Verif.Manager.C139_look_first`: propext, Quot.sound
* C139 `Verif.Manager.C139_timeline_manager`: propext, Classical.choice, Quot.sound
* C140 `Verif.Bimap.C140_references`: propext, Classical.choice, Quot.sound
* C140 `Verif.Bimap.C140_erase_own_key`: propext, Classical.choice, Quot.sound
* C140 `Verif.Bimap.C140_erase_own_key_debug`: propext, Classical.choice, Quot.sound
* C141 `Verif.ToStr.C141_history_partial`: propext, Quot.sound
* C141 `Verif.ToStr.C141_error_stays`: propext, Quot.sound
* C141 `Verif.ToStr.C141_flags_stay`: propext
* C141 `Verif.ToStr.C141_nested_wrong`: propext, Quot.sound
* C142 `Verif.Json.C142_same_outcomes`: propext, Classical.choice, Quot.sound
* C142 `Verif.Json.C142_position_partial`: propext, Classical.choice, Quot.sound
* C142 `Verif.Json.C142_message`: propext, Classical.choice, Quot.sound
* C142 `Verif.Json.C142_logged`: propext, Classical.choice, Quot.sound
* C142 `Verif.Json.C142_logged_value`: propext, Classical.choice, Quot.sound
* C142 `Verif.Json.C142_completes`: propext, Classical.choice, Quot.sound
* C142 `Verif.Json.C142_marked`: propext, Classical.choice, Quot.sound
* C142 `Verif.Json.C142_minus`: propext, Classical.choice, Quot.sound
* C142 `Verif.Json.C142_end_of_text`: propext, Classical.choice, Quot.sound
* C142 `Verif.Json.C142_last_not_shown`: propext, Classical.choice, Quot.sound
* C142 `Verif.Json.C142_number_goes_on`: propext, Classical.choice, Quot.sound
* C143 `Verif.AngleInt.C143_wrap`: propext, Classical.choice, Quot.sound
* C143 `Verif.AngleInt.C143_wrap_example`: propext, Classical.choice, Quot.sound
* C143 `Verif.AngleInt.C143_wrap_fails`: propext, Classical.choice, Quot.sound
* C143 `Verif.AngleInt.C143_dist`: propext, Classical.choice, Quot.sound
* C143 `Verif.AngleInt.C143_dist_example`: propext, Classical.choice, Quot.sound
* C143 `Verif.AngleInt.C143_dist_unsigned`: propext, Classical.choice, Quot.sound
* C143 `Verif.AngleInt.C143_rad`: propext, Classical.choice, Quot.sound
* C143 `Verif.AngleInt.C143_deg_seven`: propext, Classical.choice, Quot.sound
* C143 `Verif.AngleInt.C143_deg_fails`: propext, Classical.choice, Quot.sound
* C143 `Verif.AngleInt.C143_unsigned_fails`: propext, Classical.choice, Quot.sound
* C143 `Verif.AngleInt.C143_toRad`: propext, Classical.choice, Quot.sound
* C143 `Verif.AngleInt.C143_wrap_rad`: propext, Classical.choice, Quot.sound
* C143 `Verif.AngleInt.C143_dist_rad`: propext, Classical.choice, Quot.sound
* C143 `Verif.AngleInt.C143_example`: propext, Classical.choice, Quot.sound
* C144 `Verif.CmdLine.C144_tells_partial`: propext, Classical.choice, Quot.sound
* C144 `Verif.CmdLine.C144_reason`: propext, Classical.choice, Quot.sound
* C144 `Verif.CmdLine.C144_unknown`: propext, Classical.choice, Quot.sound
* C144 `Verif.CmdLine.C144_large_pack_fails`: propext, Classical.choice, Quot.sound
* C144 `Verif.CmdLine.C144_example`: propext, Classical.choice, Quot.sound
* C145 `Verif.RealText.C145_text`: propext, Classical.choice, Quot.sound
* C145 `Verif.RealText.C145_nearest_unique`: propext, Classical.choice, Quot.sound
* C145 `Verif.RealText.C145_text_error`: propext, Classical.choice, Quot.sound
* C145 `Verif.RealText.C145_rounding`: propext, Classical.choice, Quot.sound
* C145 `Verif.RealText.C145_read`: propext, Classical.choice, Quot.sound
* C145 `Verif.RealText.C145_read_overflow`: propext, Classical.choice, Quot.sound
* C145 `Verif.RealText.C145_set_get`: propext, Classical.choice, Quot.sound
* C145 `Verif.RealText.C145_error`: propext, Classical.choice, Quot.sound
* C145 `Verif.RealText.C145_unchanged_iff`: propext, Classical.choice, Quot.sound
* C145 `Verif.RealText.C145_settles`: propext, Classical.choice, Quot.sound
* C145 `Verif.RealText.C145_integers`: propext, Classical.choice, Quot.sound
* C145 `Verif.RealText.C145_integers_changed`: propext, Classical.choice, Quot.sound
* C145 `Verif.RealText.C145_infinite`: propext, Classical.choice, Quot.sound
* C145 `Verif.RealText.C145_history`: propext, Classical.choice, Quot.sound
* C145 `Verif.RealText.C145_keep`: propext, Classical.choice, Quot.sound
* C145 `Verif.RealText.C145_plain_history`: propext, Classical.choice, Quot.sound
* C145 `Verif.RealText.C145_division`: propext, Classical.choice, Quot.sound
* C145 `Verif.RealText.C145_stod`: propext, Classical.choice, Quot.sound
* C145 `Verif.RealText.C145_stod_small`: propext, Classical.choice, Quot.sound
* C145 `Verif.RealText.C145_stod_normal`: propext, Classical.choice, Quot.sound
* C145 `Verif.RealText.C145_stod_infinite`: propext, Classical.choice, Quot.sound
* C146 `Verif.RealText.C146_write_then_read`: propext, Classical.choice, Quot.sound
* C146 `Verif.RealText.C146_covers`: propext, Classical.choice, Quot.sound
* C146 `Verif.RealText.C146_equal_iff`: propext, Classical.choice, Quot.sound
* C146 `Verif.RealText.C146_equal_documents`: propext, Classical.choice, Quot.sound
* C146 `Verif.RealText.C146_six_digits_back`: propext, Classical.choice, Quot.sound
* C146 `Verif.RealText.C146_layout`: propext, Classical.choice, Quot.sound
* C146 `Verif.RealText.C146_large`: propext, Classical.choice, Quot.sound
* C146 `Verif.RealText.C146_infinite`: propext, Classical.choice, Quot.sound
* C147 `Verif.Clock.C147_exact`: propext, Classical.choice, Quot.sound
* C147 `Verif.Clock.C147_wait_never`: propext, Classical.choice, Quot.sound
* C147 `Verif.Clock.C147_wait_ends`: propext, Classical.choice, Quot.sound
* C147 `Verif.Clock.C147_wait_bounds`: propext, Classical.choice, Quot.sound
* C147 `Verif.Clock.C147_wait_nan`: propext, Classical.choice, Quot.sound
* C147 `Verif.Clock.C147_stalls`: propext, Classical.choice, Quot.sound
* C147 `Verif.Clock.C147_never`: propext, Classical.choice, Quot.sound
* C147 `Verif.Clock.C147_never_example`: propext, Classical.choice, Quot.sound
* C147 `Verif.Clock.C147_reaches`: propext, Classical.choice, Quot.sound
* C147 `Verif.Clock.C147_bounds`: propext, Classical.choice, Quot.sound
* C147 `Verif.Clock.C147_total`: propext, Classical.choice, Quot.sound
* C147 `Verif.Clock.C147_nan`: propext, Classical.choice, Quot.sound
* C147 `Verif.Clock.C147_paused_infinite`: propext, Classical.choice, Quot.sound
* C147 `Verif.Clock.C147_paused_partial`: propext, Classical.choice, Quot.sound
* C148 `Verif.EasingInt.C148_in`: propext, Classical.choice, Quot.sound
* C148 `Verif.EasingInt.C148_overflow`: propext, Classical.choice, Quot.sound
* C148 `Verif.EasingInt.C148_out`: propext, Classical.choice, Quot.sound
* C148 `Verif.EasingInt.C148_inOut`: propext, Classical.choice, Quot.sound
* C148 `Verif.EasingInt.C148_odd`: propext, Classical.choice, Quot.sound
* C148 `Verif.EasingInt.C148_one`: propext, Quot.sound
* C148 `Verif.EasingInt.C148_three`: none
* C148 `Verif.EasingInt.C148_bounce`: propext, Classical.choice, Quot.sound
* C148 `Verif.EasingInt.C148_linear`: propext, Classical.choice, Quot.sound
* C148 `Verif.EasingInt.C148_map`: propext, Classical.choice, Quot.sound
* C148 `Verif.EasingInt.C148_step_example`: none
* C148 `Verif.EasingInt.C148_bounce_example`: none
* C148 `Verif.EasingInt.C148_beyond`: propext, Classical.choice, Quot.sound
* C149 `Verif.EasingFp.C149_nan`: propext, Classical.choice, Quot.sound
* C149 `Verif.EasingFp.C149_linear_order`: propext, Classical.choice, Quot.sound
* C149 `Verif.EasingFp.C149_linear_overflow`: propext, Classical.choice, Quot.sound
* C149 `Verif.EasingFp.C149_linear_overflow_example`: propext, Classical.choice, Quot.sound
* C149 `Verif.EasingFp.C149_linear_end`: propext, Classical.choice, Quot.sound
* C149 `Verif.EasingFp.C149_quad_out`: propext, Classical.choice, Quot.sound
* C149 `Verif.EasingFp.C149_map`: propext, Classical.choice, Quot.sound
* C149 `Verif.EasingFp.C149_map_misses`: propext, Classical.choice, Quot.sound
* C149 `Verif.EasingFp.C149_formats`: propext, Classical.choice, Quot.sound
* C149 `Verif.EasingFp.C149_odd`: propext, Classical.choice, Quot.sound
* C149 `Verif.EasingFp.C149_start`: propext, Classical.choice, Quot.sound
* C149 `Verif.EasingFp.C149_start_nan`: propext, Classical.choice, Quot.sound
* C149 `Verif.EasingFp.C149_end`: propext, Classical.choice, Quot.sound
* C149 `Verif.EasingFp.C149_inOut_end`: propext, Classical.choice, Quot.sound
* C149 `Verif.EasingFp.C149_inOut_middle`: propext, Classical.choice, Quot.sound
* C149 `Verif.EasingFp.C149_cubic_end`: propext, Classical.choice, Quot.sound
* C149 `Verif.EasingFp.C149_order`: propext, Classical.choice, Quot.sound
* C149 `Verif.EasingFp.C149_range`: propext, Classical.choice, Quot.sound
* C149 `Verif.EasingFp.C149_example`: propext, Classical.choice, Quot.sound
* C150 `Verif.Manager.C150_order`: propext, Classical.choice, Quot.sound
* C150 `Verif.Manager.C150_allowed`: propext, Classical.choice, Quot.sound
* C150 `Verif.Manager.C150_places`: propext, Classical.choice, Quot.sound
* C150 `Verif.Manager.C150_stay`: propext, Classical.choice, Quot.sound
* C150 `Verif.Manager.C150_nothing_deleted`: propext, Classical.choice, Quot.sound
* C150 `Verif.Manager.C150_example`: propext, Quot.sound
* C151 `Verif.Manager.C151_loop`: propext, Classical.choice, Quot.sound
* C151 `Verif.Manager.C151_once`: propext, Classical.choice, Quot.sound
* C151 `Verif.Manager.C151_grow`: propext, Classical.choice, Quot.sound
* C151 `Verif.Manager.C151_erase`: propext, Classical.choice, Quot.sound
* C151 `Verif.Manager.C151_clear`: propext, Classical.choice, Quot.sound
* C151 `Verif.Manager.C151_skipped`: propext, Classical.choice, Quot.sound
* C152 `Verif.Container.C152_references`: propext, Classical.choice, Quot.sound
* C152 `Verif.Container.C152_assign`: propext, Classical.choice, Quot.sound
* C152 `Verif.Container.C152_dictionary`: propext, Classical.choice, Quot.sound
* C152 `Verif.Container.C152_examples`: propext, Quot.sound
* C153 `Verif.Tmpl.C153_values`: propext, Classical.choice, Quot.sound
* C153 `Verif.Tmpl.C153_reading_changes`: propext, Classical.choice, Quot.sound
* C153 `Verif.Tmpl.C153_self`: propext, Classical.choice, Quot.sound
* C154 `Verif.Timeline.System.C154_layers`: propext, Classical.choice, Quot.sound
* C154 `Verif.Timeline.System.C154_returns`: propext, Classical.choice, Quot.sound
* C154 `Verif.Timeline.System.C154_circles`: propext, Quot.sound
* C154 `Verif.Timeline.System.C154_stopped`: propext, Quot.sound
* C154 `Verif.Timeline.System.C154_example`: propext
* C155 `Verif.Timeline.Throw.C155_conservative`: propext, Quot.sound
* C155 `Verif.Timeline.Throw.C155_retry`: propext, Classical.choice, Quot.sound
* C155 `Verif.Timeline.Throw.C155_at_least_once`: propext
* C155 `Verif.Timeline.Throw.C155_example`: propext
* C156 `Verif.Json.Part.C156_assign`: propext, Classical.choice, Quot.sound
* C156 `Verif.Json.Part.C156_new_entry`: propext, Classical.choice, Quot.sound
* C156 `Verif.Json.Part.C156_into_itself`: propext, Classical.choice, Quot.sound
* C156 `Verif.Json.Part.C156_example`: propext, Classical.choice, Quot.sound
* C157 `Verif.Manager.Ctor.C157_constructors`: propext, Classical.choice, Quot.sound
* C157 `Verif.Manager.Ctor.C157_order`: propext, Classical.choice, Quot.sound
* C157 `Verif.Manager.Ctor.C157_conservative`: propext, Quot.sound
* C157 `Verif.Manager.Ctor.C157_exception`: propext, Classical.choice, Quot.sound
* C157 `Verif.Manager.Ctor.C157_delete_itself`: propext, Classical.choice, Quot.sound
* C157 `Verif.Manager.Ctor.C157_example`: propext, Classical.choice, Quot.sound
* C158 `Verif.RecVec.Ctor.C158_exactly`: propext, Quot.sound
* C158 `Verif.RecVec.Ctor.C158_orders_agree`: propext, Quot.sound
* C158 `Verif.RecVec.Ctor.C158_owned_once`: propext, Classical.choice, Quot.sound
* C158 `Verif.RecVec.Ctor.C158_makes_another`: propext, Quot.sound
* C159 `Verif.Pcg.C159_sizes`: propext, Classical.choice, Quot.sound
* C159 `Verif.Pcg.C159_defined`: propext, Quot.sound
* C159 `Verif.Pcg.C159_draw`: propext, Quot.sound
* C160 `Verif.Delegate.Reenter.C160_exact`: propext, Quot.sound
* C160 `Verif.Delegate.Reenter.C160_keeps`: propext, Quot.sound
* C160 `Verif.Delegate.Reenter.C160_reachable`: propext, Quot.sound
* C160 `Verif.Delegate.Reenter.C160_undefined_iff`: propext, Quot.sound
* C160 `Verif.Delegate.Reenter.C160_reentrant`: propext, Quot.sound
* C160 `Verif.Delegate.Reenter.C160_exception`: propext, Quot.sound
* C160 `Verif.Delegate.Reenter.C160_clear`: propext, Quot.sound
* C160 `Verif.Delegate.Reenter.C160_doubling`: propext, Quot.sound
* C161 `Verif.PcgExt.C161_discard_iff`: propext, Classical.choice, Quot.sound
* C161 `Verif.PcgExt.C161_discard_quiet`: propext, Classical.choice, Quot.sound
* C161 `Verif.PcgExt.C161_discard_wrong`: propext, Classical.choice, Quot.sound
* C161 `Verif.PcgExt.C161_discard_fixed`: propext, Classical.choice, Quot.sound
* C161 `Verif.PcgExt.C161_minus`: propext, Classical.choice, Quot.sound
* C161 `Verif.PcgExt.C161_minus_zero`: propext, Classical.choice, Quot.sound
* C161 `Verif.PcgExt.C161_minus_zero_differs`: propext, Classical.choice, Quot.sound
* C161 `Verif.PcgExt.C161_wrapped`: propext, Classical.choice, Quot.sound
* C162 `Verif.EasingFp.C162_bounce_floor`: propext, Classical.choice, Quot.sound
* C162 `Verif.EasingFp.C162_start_partial`: propext, Classical.choice, Quot.sound
* C162 `Verif.EasingFp.C162_back_out_start`: propext, Classical.choice, Quot.sound
* C162 `Verif.EasingFp.C162_back_out_start_misses`: propext, Classical.choice, Quot.sound
* C162 `Verif.EasingFp.C162_end_partial`: propext, Classical.choice, Quot.sound
* C162 `Verif.EasingFp.C162_back_in_end`: propext, Classical.choice, Quot.sound
* C162 `Verif.EasingFp.C162_back_in_misses`: propext, Classical.choice, Quot.sound
* C162 `Verif.EasingFp.C162_middle_partial`: propext, Classical.choice, Quot.sound
* C162 `Verif.EasingFp.C162_circ_jumps`: propext, Classical.choice, Quot.sound
* C162 `Verif.EasingFp.C162_circ_order`: propext, Classical.choice, Quot.sound
* C162 `Verif.EasingFp.C162_expo_order`: propext, Classical.choice, Quot.sound
* C162 `Verif.EasingFp.C162_pow_example`: propext, Classical.choice, Quot.sound
* C162 `Verif.EasingFp.C162_sine_out_misses`: propext, Classical.choice, Quot.sound
* C162 `Verif.EasingFp.C162_sine_in_overshoots`: propext, Classical.choice, Quot.sound
* C162 `Verif.EasingFp.C162_sine_example`: propext, Classical.choice, Quot.sound
* C163 `Verif.Util.C163_shared`: propext, Classical.choice, Quot.sound
* C163 `Verif.Util.C163_own`: propext, Classical.choice, Quot.sound
* C163 `Verif.Util.C163_nth`: propext, Classical.choice, Quot.sound
* C163 `Verif.Util.C163_find`: propext
* C163 `Verif.Util.C163_trim`: propext, Quot.sound
* C163 `Verif.Util.C163_stateless`: propext, Classical.choice, Quot.sound
* C164 `Verif.Console.C164_texts`: propext, Quot.sound
* C164 `Verif.Console.C164_colours`: propext, Quot.sound
* C164 `Verif.Console.C164_untouched`: propext, Quot.sound
* C164 `Verif.Console.C164_one_stream`: propext, Quot.sound
* C164 `Verif.Console.C164_styles_add_up`: propext, Quot.sound
* C164 `Verif.Console.C164_other_stream`: propext, Quot.sound
* C164 `Verif.Console.C164_kept`: propext, Quot.sound
* C164 `Verif.Console.C164_null`: propext, Quot.sound
* C164 `Verif.Console.C164_clear`: propext, Quot.sound
* C165 `Verif.Console.C165_first`: propext, Quot.sound
* C165 `Verif.Console.C165_no_terminal`: propext
* C165 `Verif.Console.C165_null`: propext, Quot.sound
* C166 `Verif.Grow.C166_grow`: propext, Classical.choice, Quot.sound
* C166 `Verif.Grow.C166_no_memory`: propext
* C166 `Verif.Grow.C166_move_throws`: propext, Classical.choice, Quot.sound
* C166 `Verif.Grow.C166_endless`: propext, Quot.sound
* C166 `Verif.Grow.C166_wrong`: propext, Quot.sound
* C166 `Verif.Grow.C166_history`: propext, Classical.choice, Quot.sound
* C166 `Verif.Grow.C166_bounds`: propext, Quot.sound
* C167 `Verif.FnTraits.C167_signature`: propext
* C167 `Verif.FnTraits.C167_supported`: propext, Quot.sound
* C167 `Verif.FnTraits.C167_noexcept_rejected`: propext
* C167 `Verif.FnTraits.C167_const_pointer_rejected`: propext
* C167 `Verif.FnTraits.C167_member_round_trip`: propext
* C167 `Verif.FnTraits.C167_member_type`: propext
* C167 `Verif.FnTraits.C167_owner`: propext
* C168 `Verif.MakeArray.C168_kept`: propext, Classical.choice, Quot.sound
* C168 `Verif.MakeArray.C168_compiles`: propext, Classical.choice, Quot.sound
* C168 `Verif.MakeArray.C168_order`: propext, Classical.choice, Quot.sound
* C168 `Verif.MakeArray.C168_type`: propext, Classical.choice, Quot.sound
