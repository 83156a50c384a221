# Axioms of the property theorems

Generated by `tools/axioms.py` with `#print axioms`.

## Classical.choice, Quot.sound, propext (594)

* `SoDa.C01_squash_words`
* `SoDa.C01_squash_shape`
* `SoDa.C01_squash_idempotent`
* `SoDa.C02_squash_ub_iff`
* `SoDa.C02_split_ub_iff`
* `SoDa.C02_splitVec_ub_iff`
* `SoDa.C03_split_fields`
* `SoDa.C03_split_fields_noEmpty`
* `SoDa.C03_splitVec_same`
* `SoDa.C04_split_join`
* `SoDa.C04_split_join_space`
* `SoDa.C05_substitution`
* `SoDa.C05_any_history`
* `SoDa.C06_escaped_text`
* `SoDa.C06_lone_percent`
* `SoDa.C07_pieces_roundtrip`
* `SoDa.C08_number_mod`
* `SoDa.C08_leading_zeros_and_wrap`
* `SoDa.C09_reset_as_new`
* `SoDa.C09_reset_later`
* `SoDa.C10_str_check`
* `SoDa.C10_str_pure`
* `SoDa.C11_addI`
* `SoDa.C11_addI_huge_width`
* `SoDa.C12_addI_nonneg`
* `SoDa.C12_addI_partial`
* `SoDa.C12_refuted`
* `SoDa.C12_addI_extra_partial`
* `SoDa.C12_exact`
* `SoDa.C13_addU_hex`
* `SoDa.C14_addU_oct`
* `SoDa.C15_addU_dec`
* `SoDa.C16_addU_separators`
* `SoDa.C16_addU_group_zero`
* `SoDa.C17_refuted_width`
* `SoDa.C17_refuted_length`
* `SoDa.C17_exact`
* `SoDa.C18_addB`
* `SoDa.C18_addC_anywhere`
* `SoDa.C19_addF_nan_inf`
* `SoDa.C20_eng_shape_partial`
* `SoDa.C20_eng_zero`
* `SoDa.C20_refuted`
* `SoDa.C20_exponent_binary64`
* `SoDa.C20_no_digits_partial`
* `SoDa.C21_eng_int_partial`
* `SoDa.C21_refuted`
* `SoDa.C21_exact`
* `SoDa.C22_eng_exact`
* `SoDa.C22_eng_binary64_partial`
* `SoDa.C22_refuted`
* `SoDa.C22_eng_more_digits_partial`
* `SoDa.C23_eng_exact`
* `SoDa.C23_eng_returns_partial`
* `SoDa.C23_eng_stops_partial`
* `SoDa.C23_eng_range_partial`
* `SoDa.C23_refuted_small`
* `SoDa.C23_refuted_large`
* `SoDa.C24_addF_fixed`
* `SoDa.Opts.C25_complete_line`
* `SoDa.Opts.C25_well_formed`
* `SoDa.Opts.C25_true_only`
* `SoDa.Opts.C25_reading_unique`
* `SoDa.Opts.C26_isPresent`
* `SoDa.Opts.C26_isPresent_unregistered`
* `SoDa.Opts.C27_presence_kept`
* `SoDa.Opts.C27_targets_kept`
* `SoDa.Opts.C28_unknown_switch`
* `SoDa.Opts.C29_rejected_value`
* `SoDa.Opts.C30_help`
* `SoDa.Opts.C31_exact`
* `SoDa.Opts.C31_dangling_partial`
* `SoDa.Opts.C31_refuted`
* `SoDa.Opts.C32_exact`
* `SoDa.Opts.C32_reparse_partial`
* `SoDa.Opts.C32_refuted`
* `SoDa.Opts.C32_refuted_forever`
* `SoDa.Opts.C33_vectors_refuted`
* `SoDa.Opts.C33_exact`
* `SoDa.Opts.C33_signed_scalar_partial`
* `SoDa.Opts.C33_int_partial`
* `SoDa.Opts.C33_refuted`
* `SoDa.Opts.C34_int_values`
* `SoDa.Opts.C34_int_roundtrip`
* `SoDa.Opts.C34_begins_unique`
* `SoDa.Opts.C35_bool_values`
* `SoDa.Opts.C37_string_line`
* `SoDa.Opts.C37_quote_all`
* `SoDa.Opts.C37_argv`
* `SoDa.Opts.C38_keyValue`
* `SoDa.Opts.C38_keyValue_list`
* `SoDa.Opts.C38_kvp_string`
* `SoDa.Opts.C39_names`
* `SoDa.Opts.C39_help`
* `SoDa.Opts.C39_calls`
* `SoDa.Mail.C40_delivery`
* `SoDa.Mail.C40_prefix`
* `SoDa.Mail.C40_get`
* `SoDa.Mail.C40_thread_order`
* `SoDa.Mail.C41_subsequence`
* `SoDa.Mail.C41_common_order`
* `SoDa.Mail.C41_sender_order`
* `SoDa.Mail.C42_undisturbed`
* `SoDa.Mail.C42_not_blocked`
* `SoDa.Mail.C43_readyCount`
* `SoDa.Mail.C43_minReadyCount`
* `SoDa.Mail.C43_subscriberCount`
* `SoDa.Mail.C44_wrong_mailbox`
* `SoDa.Mail.C44_other_mailboxes`
* `SoDa.Mail.C45_ids`
* `SoDa.Mail.C45_subscribe`
* `SoDa.Mail.C45_dead`
* `SoDa.Mail.C46_references`
* `SoDa.Mail.C46_empty`
* `SoDa.Mail.C47_exact`
* `SoDa.Mail.C47_drop_partial`
* `SoDa.Mail.C47_refuted`
* `SoDa.Mail.C47_refuted_destroyed`
* `SoDa.Mail.C47_after_destruction`
* `SoDa.Bar.C48_rounds`
* `SoDa.Bar.C48_no_exception`
* `SoDa.Bar.C49_released`
* `SoDa.Bar.C49_no_deadlock`
* `SoDa.Bar.C49_next_round`
* `SoDa.Bar.C50_timeout_partial`
* `SoDa.Bar.C50_others_return_partial`
* `SoDa.Bar.C51_surplus_partial`
* `SoDa.Bar.C51_overtaken_partial`
* `SoDa.Bar.C51_too_few`
* `SoDa.Prop.C52_lookup_partial`
* `SoDa.Prop.C52_refuted_always`
* `SoDa.Prop.C52_refuted`
* `SoDa.Prop.C53_exact`
* `SoDa.Prop.C53_missing_partial`
* `SoDa.Prop.C53_get_partial`
* `SoDa.Prop.C53_one_component`
* `SoDa.Prop.C53_refuted`
* `SoDa.Prop.C53_blank_refuted`
* `SoDa.Prop.C54_maps`
* `SoDa.Prop.C55_sequences`
* `SoDa.Mail.C56_texts_partial`
* `SoDa.Mail.C56_refuted`
* `SoDa.Bar.C57_no_race`
* `SoDa.Bar.C58_texts`
* `SoDa.Prop.C59_second_file`
* `SoDa.Prop.C60_texts_partial`
* `SoDa.Prop.C60_refuted`
* `SoDa.Prop.C60_path_name`
* `SoDa.Prop.C61_string`
* `SoDa.Prop.C61_int`
* `SoDa.Prop.C62_normal_iff`
* `SoDa.Prop.C62_tree`
* `SoDa.Prop.C62_stops`
* `SoDa.Prop.C63_key_lines`
* `SoDa.Prop.C63_item_lines`
* `SoDa.Prop.C63_flat`
* `SoDa.Session.C64_all_messages`
* `SoDa.Session.C64_echo`
* `SoDa.Session.C64_barrier_needed`
* `SoDa.C65_addF_scientific`
* `SoDa.C65_large_arguments`
* `SoDa.C66_addF_general`
* `SoDa.C67_addF_unknown`
* `SoDa.Ext.C68_chain_partial`
* `SoDa.Ext.C68_program_partial`
* `SoDa.Ext.C68_copies_partial`
* `SoDa.Ext.C68_refuted`
* `SoDa.Ext.C68_dangling`
* `SoDa.Ext.C68_assign`
* `SoDa.Ext.C69_exact`
* `SoDa.Ext.C69_same_partial`
* `SoDa.Ext.C69_refuted`
* `SoDa.MailBase.C71_text_partial`
* `SoDa.MailBase.C71_refuted`
* `SoDa.C72_round_partial`
* `SoDa.C72_binary64_partial`
* `SoDa.C72_hangs`
* `SoDa.C72_refuted`
* `SoDa.C72_more_digits_partial`
* `SoDa.Opts.C73_double_values`
* `SoDa.Opts.C73_nearest`
* `SoDa.Opts.C74_roundtrip_scientific`
* `SoDa.Opts.C74_roundtrip_general`
* `SoDa.Opts.C74_sharp`
* `SoDa.Opts.C75_signed_values`
* `SoDa.Opts.C75_addI_roundtrip`
* `SoDa.Opts.C75_int`
* `SoDa.Opts.C76_refuted_always`
* `SoDa.Opts.C76_unsigned_partial`
* `SoDa.Opts.C76_refuted`
* `SoDa.Opts.C76_addU_roundtrip_partial`
* `SoDa.Opts.C76_default_partial`
* `SoDa.Opts.C77_char_values`
* `SoDa.Opts.C78_diagnostics`
* `SoDa.Opts.C79_refused_partial`
* `SoDa.Opts.C79_refuted`
* `SoDa.Bar.C80_only_line_58`
* `SoDa.Bar.C80_no_data_race`
* `SoDa.Bar.C81_ordering`
* `SoDa.Mail.C82_no_data_race`
* `SoDa.Mail.C82_ordering`
* `SoDa.Bar.C83_no_lost_wakeup`
* `SoDa.Bar.C83_stuck`
* `SoDa.Bar.C83_settles`
* `SoDa.Opts.C84_float_values`
* `SoDa.Opts.C84_nearest`
* `SoDa.Opts.C85_roundtrip_scientific`
* `SoDa.Opts.C85_roundtrip_general`
* `SoDa.Opts.C85_sharp`
* `SoDa.Prop.C86_signed`
* `SoDa.Prop.C86_unsigned`
* `SoDa.Prop.C86_double`
* `SoDa.Prop.C86_float`
* `SoDa.Prop.C86_bool`
* `SoDa.Prop.C86_char`
* `SoDa.MailTest.C87_returns_zero`
* `SoDa.MailTest.C87_no_exception`
* `SoDa.MailTest.C87_received`
* `SoDa.MailTest.C87_empty`
* `SoDa.MailTest.C87_bounded`
* `SoDa.MailTest.C87_can_finish`
* `SoDa.MailTest.C87_deadline_matters`
* `SoDa.C88_relative`
* `SoDa.C88_zero`
* `SoDa.FmtTest.C88_test_passes`
* `SoDa.FmtTest.C88_big_test`
* `SoDa.Opts.C89_signed`
* `SoDa.Opts.C89_unsigned`
* `SoDa.Opts.C89_double`
* `SoDa.Opts.C89_float`
* `SoDa.Opts.C89_char`
* `SoDa.Opts.C89_bool`
* `SoDa.Opts.C89_test`
* `SoDa.Opts.C89_others`
* `SoDa.BarTest.C90_defined`
* `SoDa.BarTest.C90_no_exception`
* `SoDa.BarTest.C90_in_step`
* `SoDa.BarTest.C90_all_pass`
* `SoDa.BarTest.C90_exit_code`
* `SoDa.BarTest.C90_bounded`
* `SoDa.BarTest.C90_goes_on`
* `SoDa.BarTest.C90_arguments`
* `SoDa.BarTest.C90_parse_defined`
* `SoDa.BarTest.C90_refuses`
* `SoDa.Bar.C91_somebody_missing`
* `SoDa.Bar.C91_rounds`
* `SoDa.Bar.C91_released`
* `SoDa.Bar.C91_no_race`
* `SoDa.Bar.C91_within`
* `SoDa.Bar.C91_no_data_race`
* `SoDa.Bar.C91_ordering`
* `SoDa.Session.C91_all_messages`
* `SoDa.MailTest.C91_mailbox_test`
* `SoDa.BarTest.C91_barrier_test`
* `SoDa.PropMem.C92_one_tree`
* `SoDa.PropMem.C92_separate`
* `SoDa.PropMem.C92_make`
* `SoDa.PropMem.C92_load`
* `SoDa.PropMem.C92_read`
* `SoDa.PropMem.C92_others`
* `SoDa.PropMem.C92_nodes`
* `SoDa.PropMem.C92_path_name`
* `SoDa.PropMem.C92_node_get`
* `SoDa.PropMem.C92_getProp`
* `SoDa.PropMem.C92_get`
* `SoDa.PropMem.C92_dump`
* `SoDa.PropMem.C93_same`
* `SoDa.PropMem.C93_stays`
* `SoDa.PropMem.C93_refuted_always`
* `SoDa.PropMem.C93_refuted`
* `SoDa.PropMem.C93_partial`
* `SoDa.PropMem.C94_count`
* `SoDa.PropMem.C94_all_lost`
* `SoDa.PropMem.C94_read_again`
* `SoDa.BarTest.C95_words`
* `SoDa.BarTest.C95_fast`
* `SoDa.BarTest.C95_should_timeout`
* `SoDa.BarTest.C95_fast_fails`
* `SoDa.BarTest.C95_conservative`
* `SoDa.BarTest.C95_may_pass`
* `SoDa.BarTest.C95_may_time_out`
* `SoDa.BarTest.C95_barrier_arguments`
* `SoDa.MailTest.C95_mailbox_silent`
* `SoDa.MailTest.C95_mailbox_pass`
* `SoDa.MailTest.C95_mailbox_arguments`
* `SoDa.MailTest.C95_mailbox_verdict`
* `SoDa.MailTest.C95_mailbox_complains`
* `SoDa.MailTest.C95_mailbox_options`
* `SoDa.Bar.C96_destroyed`
* `SoDa.Bar.C96_kept`
* `SoDa.Bar.C96_last`
* `SoDa.BarProg.C97_every_order`
* `SoDa.BarProg.C97_phases`
* `SoDa.BarProg.C97_program_order`
* `SoDa.BarProg.C97_join`
* `SoDa.BarProg.C97_fork`
* `SoDa.BarProg.C97_all_executed`
* `SoDa.BarProg.C97_not_aborted`
* `SoDa.BarProg.C97_goes_on`
* `SoDa.BarProg.C97_bounded`
* `SoDa.BarProg.C97_can_end`
* `SoDa.BarProg.C97_deadlines`
* `SoDa.BarProg.C97_example`
* `SoDa.BarProg.C97_example_ends`
* `SoDa.C98_ignored_partial`
* `SoDa.C98_zero_partial`
* `SoDa.C98_exact`
* `SoDa.C98_refuted`
* `SoDa.C99_fsg_width_partial`
* `SoDa.C99_sci_partial`
* `SoDa.C99_nan_inf_refuted`
* `SoDa.C99_fixed_exact`
* `SoDa.C99_refuted`
* `SoDa.C99_eng_partial`
* `SoDa.C99_general_exact`
* `SoDa.C99_eng_no_digits_partial`
* `SoDa.C100_fsg_partial`
* `SoDa.C100_nan_inf_partial`
* `SoDa.C100_eng_partial`
* `SoDa.C100_zero_exact`
* `SoDa.C100_refuted`
* `SoDa.C101_all_exact`
* `SoDa.C101_digits_exact_partial`
* `SoDa.C101_digits_binary64_partial`
* `SoDa.C101_exact`
* `SoDa.C101_refuted`
* `SoDa.Bar.C102_safe_to_destroy`
* `SoDa.Bar.C102_refuted`
* `SoDa.Opts.C103_replies_partial`
* `SoDa.Opts.C103_alone`
* `SoDa.Opts.C103_targets`
* `SoDa.Opts.C103_copies_share`
* `SoDa.Opts.C103_refuted`
* `SoDa.Opts.C103_presence`
* `SoDa.Prop.C104_exact`
* `SoDa.Prop.C104_missing_or_readable_partial`
* `SoDa.Prop.C104_refuted`
* `SoDa.Mail.C105_separate`
* `SoDa.Mail.C105_fresh_partial`
* `SoDa.Mail.C105_exact`
* `SoDa.Mail.C105_refuted`
* `SoDa.CTest.C106_split_exact`
* `SoDa.CTest.C106_hex_exact`
* `SoDa.CTest.C106_format_exact`
* `SoDa.CTest.C106_options_exact`
* `SoDa.CTest.C106_refuted`
* `SoDa.CTest.C106_noticed_partial`
* `SoDa.Mail.C107_delivery`
* `SoDa.Mail.C107_common_order`
* `SoDa.Mail.C107_not_blocked`
* `SoDa.Mail.C107_exact`
* `SoDa.Mail.C107_no_effect_partial`
* `SoDa.Mail.C107_put_exact`
* `SoDa.Mail.C107_refuted_put`
* `SoDa.Mail.C107_refuted_subscribe`
* `SoDa.Mail.C107_refuted`
* `SoDa.Examples.C108_names`
* `SoDa.Examples.C108_shows_partial`
* `SoDa.Examples.C108_lone_int`
* `SoDa.Examples.C108_refuses`
* `SoDa.Examples.C108_user`
* `SoDa.Examples.C108_user_lone`
* `SoDa.Examples.C108_refuted`
* `SoDa.Examples.C109_status_zero`
* `SoDa.Examples.C109_lines`
* `SoDa.Examples.C109_otherwise`
* `SoDa.C110_format`
* `SoDa.C110_addU`
* `SoDa.C110_addF`
* `SoDa.C110_split`
* `SoDa.PropMem.C110_tree`
* `SoDa.Prop.C110_tree`
* `SoDa.Opts.C111_line`
* `SoDa.Opts.C111_every_line`
* `SoDa.Opts.C111_thrown`
* `SoDa.Opts.C111_pure`
* `SoDa.Opts.C111_lines_partial`
* `SoDa.Opts.C111_lines_exact`
* `SoDa.Opts.C111_refuted`
* `SoDa.Mail.C112_alive`
* `SoDa.Mail.C112_destroyed`
* `SoDa.Mail.C112_once`
* `SoDa.Mail.C112_where`
* `SoDa.Mail.C112_refuted`
* `SoDa.Mail.C112_unlocked_partial`
* `SoDa.Mail.C112_mailbox`
* `SoDa.Mail.C112_close`
* `SoDa.Bar.C113_not_early`
* `SoDa.Bar.C113_in_time`
* `SoDa.Bar.C113_asked_partial`
* `SoDa.Bar.C113_at_once`
* `SoDa.Bar.C113_exact`
* `SoDa.Bar.C113_refuted`
* `SoDa.C114_retried`
* `SoDa.C114_fails`
* `SoDa.C114_after`
* `SoDa.C114_exact`
* `SoDa.C114_refuted`
* `SoDa.C114_unchanged_partial`
* `SoDa.C114_reset_refuted`
* `SoDa.C114_reset_after`
* `SoDa.Opts.C115_retried`
* `SoDa.Opts.C115_half`
* `SoDa.Opts.C115_exact`
* `SoDa.Opts.C115_refuted`
* `SoDa.Opts.C115_half_refuted`
* `SoDa.Opts.C116_again_exact`
* `SoDa.Opts.C116_again_any`
* `SoDa.Opts.C116_prefix`
* `SoDa.Opts.C116_between`
* `SoDa.Opts.C116_again_partial`
* `SoDa.Opts.C116_refuted`
* `SoDa.Opts.C116_positional_refuted`
* `SoDa.C117_ten_partial`
* `SoDa.C117_exact`
* `SoDa.C117_undefined`
* `SoDa.C117_refuted`
* `SoDa.FThr.C118_conflict`
* `SoDa.FThr.C118_race`
* `SoDa.FThr.C118_alone`
* `SoDa.FThr.C118_same`
* `SoDa.FThr.C118_race_matters`
* `SoDa.FThr.C118_example`
* `SoDa.Bar.C119_returns`
* `SoDa.Bar.C119_ends`
* `SoDa.Bar.C119_example`
* `SoDa.Mail.C120_returns`
* `SoDa.Mail.C120_delivered`
* `SoDa.Mail.C120_example`
* `SoDa.PropAlloc.C121_one_tree`
* `SoDa.PropAlloc.C121_read`
* `SoDa.PropAlloc.C121_enough`
* `SoDa.PropAlloc.C121_construct`
* `SoDa.PropAlloc.C122_again_partial`
* `SoDa.PropAlloc.C122_again_exact`
* `SoDa.PropAlloc.C122_refuted`
* `SoDa.PropMem.C123_alone`
* `SoDa.PropMem.C123_any_order`
* `SoDa.PropMem.C123_apart`
* `SoDa.PropMem.C123_writes`
* `SoDa.PropMem.C123_looks`
* `SoDa.PropMem.C123_copies`
* `SoDa.PropMem.C124_mistake`
* `SoDa.PropMem.C124_tree`
* `SoDa.PropMem.C124_memory`
* `SoDa.PropMem.C124_count`
* `SoDa.Prop.Graph.C125_exact`
* `SoDa.Prop.Graph.C125_normal`
* `SoDa.Prop.Graph.C125_refuted`
* `SoDa.Prop.C125_tree`
* `SoDa.Opts.C126_alone`
* `SoDa.Opts.C126_possible`
* `SoDa.Opts.C126_any_order`
* `SoDa.Opts.C126_apart`
* `SoDa.Opts.C126_writes`
* `SoDa.Opts.C126_looks`
* `SoDa.Opts.C126_result`
* `SoDa.Opts.C126_copies`
* `SoDa.Mail.Guard.C127_protected`
* `SoDa.Mail.Guard.C127_inside`
* `SoDa.Mail.Guard.C127_refuted`
* `SoDa.Mail.Guard.C127_refuted_memory`
* `SoDa.Mail.Guard.C127_refuted_two`
* `SoDa.Mail.Guard.C127_partial`
* `SoDa.Mail.Guard.C127_progress`
* `SoDa.Mail.Guard.C127_mailbox`
* `SoDa.Mail.Guard.C127_delivery`
* `SoDa.Opts.C128_line`
* `SoDa.Opts.C128_every_line`
* `SoDa.Opts.C128_depth`
* `SoDa.Opts.C128_partial`
* `SoDa.Opts.C128_signed`
* `SoDa.Opts.C128_include`
* `SoDa.Opts.C128_endless`
* `SoDa.Opts.C128_plain`
* `SoDa.Opts.C128_refuted`
* `SoDa.C129_classic_partial`
* `SoDa.C129_written_partial`
* `SoDa.C129_addI_exact`
* `SoDa.C129_addU_exact`
* `SoDa.C129_fixed_partial`
* `SoDa.C129_fixed_same_partial`
* `SoDa.C129_real_partial`
* `SoDa.C129_real_exact`
* `SoDa.C129_engineering_partial`
* `SoDa.C129_engineering_exact`
* `SoDa.C129_refuted`
* `SoDa.C130_same_partial`
* `SoDa.C130_addI_partial`
* `SoDa.C130_addU_partial`
* `SoDa.C130_real_partial`
* `SoDa.C130_grouped_exact`
* `SoDa.C130_real_exact`
* `SoDa.C130_crossed`
* `SoDa.C130_refuted`
* `SoDa.C130_point_ends`
* `SoDa.C130_point_separates`
* `SoDa.C130_zeros_exact`
* `SoDa.C130_hex`
* `SoDa.C130_engineering_partial`
* `SoDa.Mail.C131_refuted`
* `SoDa.Mail.C131_safe_partial`
* `SoDa.Mail.C131_alive`
* `SoDa.Mail.C131_released`
* `SoDa.Mail.C131_exact`
* `SoDa.C132_help_partial`
* `SoDa.C132_help_width`
* `SoDa.C132_dump`
* `SoDa.C132_dump_plain_partial`
* `SoDa.C132_format`
* `SoDa.C132_not_good`
* `SoDa.C132_exact`
* `SoDa.C132_parse`
* `SoDa.C132_refuted`
* `SoDa.C132_dump_throws`
* `SoDa.C132_dump_read`
* `SoDa.C133_linearisable`
* `SoDa.C133_many`
* `SoDa.C134_one_by_one`
* `SoDa.C134_local`
* `SoDa.C134_not_blocked`
* `SoDa.C135_no_data_race`
* `SoDa.C135_ordering`
* `SoDa.C135_relay`
* `SoDa.Bar.C136_zero`
* `SoDa.Together.C137_barrier`
* `SoDa.Together.C137_phases`
* `SoDa.Together.C137_mail`
* `SoDa.Together.C137_mail_no_race`
* `SoDa.Together.C137_bar_no_race`
* `SoDa.Prop.C138_dump`
* `SoDa.Prop.C138_read_then_dump`
* `SoDa.Together.C139_enough`
* `SoDa.Together.C139_barrier`
* `SoDa.Together.C139_all`
* `SoDa.Together.C140_standstill`
* `SoDa.Together.C140_common_order`
* `SoDa.Together.C140_settles`
* `SoDa.Together.C140_opposite`
* `SoDa.Together.C140_completes`
* `SoDa.Together.C140_goes_on`
* `SoDa.Together.C141_wait`
* `SoDa.Together.C141_mail`
* `SoDa.Together.C141_program`
* `SoDa.Together.C142_program`
* `SoDa.Together.C142_starves`
* `SoDa.Bar.C142_wait_starves`
* `SoDa.C143_addI_exact`
* `SoDa.C143_addI_sep_exact`
* `SoDa.C143_hex`
* `SoDa.C143_hex_option`
* `SoDa.C143_oct_exact`
* `SoDa.C143_dec_exact`
* `SoDa.C143_refuted`
* `SoDa.Prop.C144_based`
* `SoDa.Prop.C144_int_exact`
* `SoDa.Prop.C144_float`
* `SoDa.Prop.C144_float_as_int`
* `SoDa.Prop.C144_truncates`
* `SoDa.Prop.C144_point_first`
* `SoDa.Prop.C144_words`
* `SoDa.Prop.C144_document`
* `SoDa.Prop.C144_refuted`
* `SoDa.Prop.C145_same_partial`
* `SoDa.Prop.C145_decimal`
* `SoDa.Prop.C145_point_ends`
* `SoDa.Prop.C145_point_separates`
* `SoDa.Prop.C145_safe`
* `SoDa.Prop.C145_int_same`
* `SoDa.Prop.C145_int_separates`
* `SoDa.Prop.C145_refuted`
* `SoDa.Prop.C146_outcome`
* `SoDa.Prop.C146_signed`
* `SoDa.Prop.C146_unsigned`
* `SoDa.Prop.C146_double`
* `SoDa.Prop.C146_float`
* `SoDa.Prop.C146_bool`
* `SoDa.Prop.C146_text_partial`
* `SoDa.Prop.C146_default_exact`
* `SoDa.Prop.C146_default_unsigned`
* `SoDa.Prop.C146_default_bool`
* `SoDa.Prop.C146_default_double`
* `SoDa.Prop.C146_path`
* `SoDa.Prop.C146_path_types`
* `SoDa.Prop.C146_words`
* `SoDa.Prop.C146_refuted`
* `SoDa.C147_accepts`
* `SoDa.C147_first`
* `SoDa.C147_sign`
* `SoDa.C147_exact`
* `SoDa.C147_decimal_exact`
* `SoDa.C147_usual_form`
* `SoDa.C147_option`
* `SoDa.C147_refuted`

## Quot.sound, propext (33)

* `SoDa.C03_fields_meaning`
* `SoDa.C17_addS_partial`
* `SoDa.Opts.C36_exact`
* `SoDa.Opts.C36_getPosArg_partial`
* `SoDa.Opts.C36_refuted`
* `SoDa.Bar.C50_refuted`
* `SoDa.Bar.C51_refuted`
* `SoDa.Bar.C57_race_with_surplus`
* `SoDa.Bar.C57_race_with_timeout`
* `SoDa.MailBase.C70_convert`
* `SoDa.Bar.C80_accesses_writes`
* `SoDa.Bar.C80_accesses_reads`
* `SoDa.Bar.C80_race_with_surplus`
* `SoDa.Bar.C80_race_with_timeout`
* `SoDa.PropMem.C94_used`
* `SoDa.Bar.C102_all_ended_partial`
* `SoDa.Mail.C107_received`
* `SoDa.Bar.C113_forget`
* `SoDa.Bar.C113_expires`
* `SoDa.Opts.C115_unchanged_partial`
* `SoDa.Opts.C115_target_only`
* `SoDa.FThr.C118_own`
* `SoDa.FThr.C118_readers`
* `SoDa.Bar.C119_fair_exists`
* `SoDa.Bar.C119_ends_example`
* `SoDa.Prop.Graph.C125_same`
* `SoDa.Prop.Graph.C125_tree_partial`
* `SoDa.Prop.C125_read`
* `SoDa.C132_read_flat`
* `SoDa.Bar.C136_one`
* `SoDa.Bar.C136_one_returns`
* `SoDa.Prop.C138_read`
* `SoDa.Prop.C138_lookup`

## none (1)

* `SoDa.C110_addI`

## propext (10)

* `SoDa.C18_addC`
* `SoDa.Opts.C26_registered_absent`
* `SoDa.Bar.C50_refuted_later`
* `SoDa.Bar.C50_refuted_retry`
* `SoDa.Prop.C59_file_not_found`
* `SoDa.Prop.C62_top_sequence`
* `SoDa.BarTest.C90_timeout_unnoticed`
* `SoDa.PropMem.C93_one_tree`
* `SoDa.Opts.C110_options`
* `SoDa.C114_reset_again`
