{
 "claims": [
  {
   "property": "C01",
   "status": "proved",
   "theorems": [
    "SoDa.C01_squash_words",
    "SoDa.C01_squash_shape",
    "SoDa.C01_squash_idempotent"
   ],
   "note": ""
  },
  {
   "property": "C02",
   "status": "proved",
   "theorems": [
    "SoDa.C02_squash_ub_iff",
    "SoDa.C02_split_ub_iff",
    "SoDa.C02_splitVec_ub_iff"
   ],
   "note": "The code has undefined behaviour on empty and all-space strings; the property states exactly when."
  },
  {
   "property": "C03",
   "status": "proved",
   "theorems": [
    "SoDa.C03_split_fields",
    "SoDa.C03_split_fields_noEmpty",
    "SoDa.C03_splitVec_same",
    "SoDa.C03_fields_meaning"
   ],
   "note": ""
  },
  {
   "property": "C04",
   "status": "proved",
   "theorems": [
    "SoDa.C04_split_join",
    "SoDa.C04_split_join_space"
   ],
   "note": ""
  },
  {
   "property": "C05",
   "status": "proved",
   "theorems": [
    "SoDa.C05_substitution",
    "SoDa.C05_any_history"
   ],
   "note": "Proved for any number of values, not only fewer than 2^32."
  },
  {
   "property": "C06",
   "status": "proved",
   "theorems": [
    "SoDa.C06_escaped_text",
    "SoDa.C06_lone_percent"
   ],
   "note": ""
  },
  {
   "property": "C07",
   "status": "proved",
   "theorems": [
    "SoDa.C07_pieces_roundtrip"
   ],
   "note": ""
  },
  {
   "property": "C08",
   "status": "proved",
   "theorems": [
    "SoDa.C08_number_mod",
    "SoDa.C08_leading_zeros_and_wrap"
   ],
   "note": ""
  },
  {
   "property": "C09",
   "status": "proved",
   "theorems": [
    "SoDa.C09_reset_as_new",
    "SoDa.C09_reset_later"
   ],
   "note": ""
  },
  {
   "property": "C10",
   "status": "proved",
   "theorems": [
    "SoDa.C10_str_check",
    "SoDa.C10_str_pure"
   ],
   "note": ""
  },
  {
   "property": "C11",
   "status": "proved",
   "theorems": [
    "SoDa.C11_addI",
    "SoDa.C11_addI_huge_width"
   ],
   "note": ""
  },
  {
   "property": "C12",
   "status": "partial",
   "theorems": [
    "SoDa.C12_addI_nonneg",
    "SoDa.C12_addI_partial",
    "SoDa.C12_refuted",
    "SoDa.C12_addI_extra_partial",
    "SoDa.C12_exact"
   ],
   "note": "True for v >= 0 and for negative values whose digit count is not a multiple of three. Refuted otherwise: addI(-123,0,',') prints -,123. C12_exact: for a separator other than a digit or '-', the claim holds for v if and only if v >= 0 or the digit count is not a multiple of three."
  },
  {
   "property": "C13",
   "status": "proved",
   "theorems": [
    "SoDa.C13_addU_hex"
   ],
   "note": ""
  },
  {
   "property": "C14",
   "status": "proved",
   "theorems": [
    "SoDa.C14_addU_oct"
   ],
   "note": ""
  },
  {
   "property": "C15",
   "status": "proved",
   "theorems": [
    "SoDa.C15_addU_dec"
   ],
   "note": ""
  },
  {
   "property": "C16",
   "status": "proved",
   "theorems": [
    "SoDa.C16_addU_separators",
    "SoDa.C16_addU_group_zero"
   ],
   "note": "Also shown: what happens for group size 0 (a trailing separator)."
  },
  {
   "property": "C17",
   "status": "partial",
   "theorems": [
    "SoDa.C17_addS_partial",
    "SoDa.C17_refuted_width",
    "SoDa.C17_refuted_length",
    "SoDa.C17_exact"
   ],
   "note": "Proved for strings shorter than 2^31 and widths above INT_MIN. Refuted for INT_MIN (signed overflow) and for strings of 2^32 characters (int conversion). C17_exact states for which widths and strings the claim holds, as an equivalence."
  },
  {
   "property": "C18",
   "status": "proved",
   "theorems": [
    "SoDa.C18_addC",
    "SoDa.C18_addB",
    "SoDa.C18_addC_anywhere"
   ],
   "note": ""
  },
  {
   "property": "C19",
   "status": "proved",
   "theorems": [
    "SoDa.C19_addF_nan_inf"
   ],
   "note": ""
  },
  {
   "property": "C20",
   "status": "partial",
   "theorems": [
    "SoDa.C20_eng_shape_partial",
    "SoDa.C20_eng_zero",
    "SoDa.C20_refuted",
    "SoDa.C20_exponent_binary64",
    "SoDa.C20_no_digits_partial"
   ],
   "note": "Proved for d >= 1 and any monotone rounding. Refuted for d = 0: addF(20.0,'e',0,0) inserts ' 0 e+0 '. C20_no_digits_partial: with no digits the text reads as zero or as twice the number (addF(5.0,'e',0,0) inserts ' 10e+0 '). C20_exponent_binary64: the exponent of a double fits into an int."
  },
  {
   "property": "C21",
   "status": "partial",
   "theorems": [
    "SoDa.C21_eng_int_partial",
    "SoDa.C21_refuted",
    "SoDa.C21_exact"
   ],
   "note": "Proved: 1..999, or 1000 with a zero fraction. Refuted as stated: addF(995.0,'e',0,2) inserts ' 1000e+0 '. C21_exact (exact arithmetic, 1 to 10 digits): the claim holds if and only if no rounding carries to a power of 1000."
  },
  {
   "property": "C22",
   "status": "partial",
   "theorems": [
    "SoDa.C22_eng_exact",
    "SoDa.C22_eng_binary64_partial",
    "SoDa.C22_refuted",
    "SoDa.C22_eng_more_digits_partial"
   ],
   "note": "Proved in full for exact arithmetic; for binary64 within 0.502 units for 1e-304..1e304 and d <= 9, within 0.51 units for ten digits and 1e-293..1e293, and for eleven and 1e-23..1e23. Refuted for the subnormal 2^-1072 (error 0.6 units)."
  },
  {
   "property": "C23",
   "status": "partial",
   "theorems": [
    "SoDa.C23_eng_exact",
    "SoDa.C23_eng_returns_partial",
    "SoDa.C23_eng_stops_partial",
    "SoDa.C23_eng_range_partial",
    "SoDa.C23_refuted_small",
    "SoDa.C23_refuted_large"
   ],
   "note": "The exact set is proved: for every double and any number of digits the call ends if and only if 2*2^-1074 < |v| < hangFrom(d) (a table; 1.79768813e308 for six digits); up to ten digits it then returns without undefined behaviour. Outside it never ends, e.g. for the smallest subnormal and for the largest double (refuted)."
  },
  {
   "property": "C24",
   "status": "proved",
   "theorems": [
    "SoDa.C24_addF_fixed"
   ],
   "note": ""
  },
  {
   "property": "C25",
   "status": "proved",
   "theorems": [
    "SoDa.Opts.C25_complete_line",
    "SoDa.Opts.C25_well_formed",
    "SoDa.Opts.C25_true_only",
    "SoDa.Opts.C25_reading_unique"
   ],
   "note": ""
  },
  {
   "property": "C26",
   "status": "proved",
   "theorems": [
    "SoDa.Opts.C26_isPresent",
    "SoDa.Opts.C26_isPresent_unregistered",
    "SoDa.Opts.C26_registered_absent"
   ],
   "note": ""
  },
  {
   "property": "C27",
   "status": "proved",
   "theorems": [
    "SoDa.Opts.C27_presence_kept",
    "SoDa.Opts.C27_targets_kept"
   ],
   "note": ""
  },
  {
   "property": "C28",
   "status": "proved",
   "theorems": [
    "SoDa.Opts.C28_unknown_switch"
   ],
   "note": ""
  },
  {
   "property": "C29",
   "status": "proved",
   "theorems": [
    "SoDa.Opts.C29_rejected_value"
   ],
   "note": ""
  },
  {
   "property": "C30",
   "status": "proved",
   "theorems": [
    "SoDa.Opts.C30_help"
   ],
   "note": ""
  },
  {
   "property": "C31",
   "status": "partial",
   "theorems": [
    "SoDa.Opts.C31_exact",
    "SoDa.Opts.C31_dangling_partial",
    "SoDa.Opts.C31_refuted"
   ],
   "note": "Proved: parse returns true and every target, positional and presence flag is as after the preceding tokens. Refuted: the dangling option is not marked present. C31_exact: the option is present afterwards exactly if it was before or occurs in the preceding tokens."
  },
  {
   "property": "C32",
   "status": "partial",
   "theorems": [
    "SoDa.Opts.C32_exact",
    "SoDa.Opts.C32_reparse_partial",
    "SoDa.Opts.C32_refuted",
    "SoDa.Opts.C32_refuted_forever"
   ],
   "note": "Proved unless the earlier line ended within an option of a signed type. Refuted for that case: afterwards every token is taken as a positional, for ever. C32_exact: the next line is read as if it were the first exactly if the earlier one did not end that way."
  },
  {
   "property": "C33",
   "status": "partial",
   "theorems": [
    "SoDa.Opts.C33_vectors_refuted",
    "SoDa.Opts.C33_exact",
    "SoDa.Opts.C33_signed_scalar_partial",
    "SoDa.Opts.C33_int_partial",
    "SoDa.Opts.C33_refuted"
   ],
   "note": "Proved for scalars of signed types. Refuted for vectors: '--list -3' is rejected as an unknown switch. C33_exact, C33_vectors_refuted: it holds for no vector and no negative number."
  },
  {
   "property": "C34",
   "status": "proved",
   "theorems": [
    "SoDa.Opts.C34_int_values",
    "SoDa.Opts.C34_int_roundtrip",
    "SoDa.Opts.C34_begins_unique"
   ],
   "note": ""
  },
  {
   "property": "C35",
   "status": "proved",
   "theorems": [
    "SoDa.Opts.C35_bool_values"
   ],
   "note": ""
  },
  {
   "property": "C36",
   "status": "partial",
   "theorems": [
    "SoDa.Opts.C36_exact",
    "SoDa.Opts.C36_getPosArg_partial",
    "SoDa.Opts.C36_refuted"
   ],
   "note": "Proved for every index other than numPosArgs(). Refuted there: the vector is read out of bounds (undefined behaviour). C36_exact is the equivalence."
  },
  {
   "property": "C37",
   "status": "proved",
   "theorems": [
    "SoDa.Opts.C37_string_line",
    "SoDa.Opts.C37_quote_all",
    "SoDa.Opts.C37_argv"
   ],
   "note": ""
  },
  {
   "property": "C38",
   "status": "proved",
   "theorems": [
    "SoDa.Opts.C38_keyValue",
    "SoDa.Opts.C38_keyValue_list",
    "SoDa.Opts.C38_kvp_string"
   ],
   "note": "Spaces around the items are allowed; keys and values must be non-empty, free of ',' and '=', without doubled or outer spaces."
  },
  {
   "property": "C39",
   "status": "proved",
   "theorems": [
    "SoDa.Opts.C39_names",
    "SoDa.Opts.C39_help",
    "SoDa.Opts.C39_calls"
   ],
   "note": ""
  },
  {
   "property": "C40",
   "status": "proved",
   "theorems": [
    "SoDa.Mail.C40_delivery",
    "SoDa.Mail.C40_prefix",
    "SoDa.Mail.C40_get",
    "SoDa.Mail.C40_thread_order"
   ],
   "note": ""
  },
  {
   "property": "C41",
   "status": "proved",
   "theorems": [
    "SoDa.Mail.C41_subsequence",
    "SoDa.Mail.C41_common_order",
    "SoDa.Mail.C41_sender_order"
   ],
   "note": ""
  },
  {
   "property": "C42",
   "status": "proved",
   "theorems": [
    "SoDa.Mail.C42_undisturbed",
    "SoDa.Mail.C42_not_blocked"
   ],
   "note": ""
  },
  {
   "property": "C43",
   "status": "proved",
   "theorems": [
    "SoDa.Mail.C43_readyCount",
    "SoDa.Mail.C43_minReadyCount",
    "SoDa.Mail.C43_subscriberCount"
   ],
   "note": "Counts for histories in which no null message is put (a null message is counted too, but cannot be told from an empty mailbox)."
  },
  {
   "property": "C44",
   "status": "proved",
   "theorems": [
    "SoDa.Mail.C44_wrong_mailbox",
    "SoDa.Mail.C44_other_mailboxes"
   ],
   "note": ""
  },
  {
   "property": "C45",
   "status": "proved",
   "theorems": [
    "SoDa.Mail.C45_ids",
    "SoDa.Mail.C45_subscribe",
    "SoDa.Mail.C45_dead"
   ],
   "note": ""
  },
  {
   "property": "C46",
   "status": "proved",
   "theorems": [
    "SoDa.Mail.C46_references",
    "SoDa.Mail.C46_empty"
   ],
   "note": ""
  },
  {
   "property": "C47",
   "status": "partial",
   "theorems": [
    "SoDa.Mail.C47_exact",
    "SoDa.Mail.C47_drop_partial",
    "SoDa.Mail.C47_refuted",
    "SoDa.Mail.C47_refuted_destroyed",
    "SoDa.Mail.C47_after_destruction"
   ],
   "note": "Proved for histories without an explicit unsubscribe(id) of that id. Refuted: unsubscribe(id) followed by dropping the Subscription throws out of a destructor (std::terminate); dropping after the mailbox is destroyed is undefined. C47_exact: dropping is safe exactly if the subscription has not been ended before, otherwise std::terminate. C47_after_destruction: in every program, dropping a subscription while no mailbox exists at its address is undefined."
  },
  {
   "property": "C48",
   "status": "proved",
   "theorems": [
    "SoDa.Bar.C48_rounds",
    "SoDa.Bar.C48_no_exception"
   ],
   "note": "For n < 2^32 (num_waiters is an unsigned int); the generation counter may wrap any number of times."
  },
  {
   "property": "C49",
   "status": "proved",
   "theorems": [
    "SoDa.Bar.C49_released",
    "SoDa.Bar.C49_no_deadlock",
    "SoDa.Bar.C49_next_round"
   ],
   "note": "Bounded termination of every schedule of the threads' own statements, no deadlock, next call possible; spurious wake-ups may have happened before."
  },
  {
   "property": "C50",
   "status": "partial",
   "theorems": [
    "SoDa.Bar.C50_timeout_partial",
    "SoDa.Bar.C50_refuted",
    "SoDa.Bar.C50_refuted_later",
    "SoDa.Bar.C50_others_return_partial",
    "SoDa.Bar.C50_refuted_retry"
   ],
   "note": "Proved: Timeout at most once, Corrupt only after it, nobody gets an exception before its own deadline. Refuted: a later arrival can pass the barrier alone, as can the timed-out thread when it tries again; and C50_others_return_partial shows the opposite of the claim in every execution in which the barrier does not fill: no other sleeping thread gets any exception and all of them return normally."
  },
  {
   "property": "C51",
   "status": "partial",
   "theorems": [
    "SoDa.Bar.C51_surplus_partial",
    "SoDa.Bar.C51_refuted",
    "SoDa.Bar.C51_overtaken_partial",
    "SoDa.Bar.C51_too_few"
   ],
   "note": "Stated for the number a of calls made so far. Proved when no generation ends between a thread's unlocked read and its arrival; without that assumption the returns exceed the claimed bound by at most the number of such overtakings; fewer threads than the barrier is for never pass. Refuted as claimed: three threads all pass a barrier for two."
  },
  {
   "property": "C52",
   "status": "partial",
   "theorems": [
    "SoDa.Prop.C52_lookup_partial",
    "SoDa.Prop.C52_refuted_always",
    "SoDa.Prop.C52_refuted"
   ],
   "note": "Proved: exactly when getProp returns a node. Refuted at every path of every tree: the search never descends, the node returned is always the one it began at, so get reads the root's own value 'root'."
  },
  {
   "property": "C53",
   "status": "partial",
   "theorems": [
    "SoDa.Prop.C53_exact",
    "SoDa.Prop.C53_missing_partial",
    "SoDa.Prop.C53_get_partial",
    "SoDa.Prop.C53_one_component",
    "SoDa.Prop.C53_refuted",
    "SoDa.Prop.C53_blank_refuted"
   ],
   "note": "Proved for one-component paths and for every path with a component that is not a key of the root. Refuted: in {a: x, b: y} the path a:b is 'found'; a blank path is undefined behaviour. C53_exact: PropertyNotFound exactly if some component is not a key of the root, otherwise the value of the root is read."
  },
  {
   "property": "C54",
   "status": "proved",
   "theorems": [
    "SoDa.Prop.C54_maps"
   ],
   "note": ""
  },
  {
   "property": "C55",
   "status": "proved",
   "theorems": [
    "SoDa.Prop.C55_sequences"
   ],
   "note": ""
  },
  {
   "property": "C56",
   "status": "partial",
   "theorems": [
    "SoDa.Mail.C56_texts_partial",
    "SoDa.Mail.C56_refuted"
   ],
   "note": "Proved: the exact texts. Refuted: the format string of SubscriptionMismatch has no field, so the other mailbox is never named."
  },
  {
   "property": "C57",
   "status": "proved",
   "theorems": [
    "SoDa.Bar.C57_no_race",
    "SoDa.Bar.C57_race_with_surplus",
    "SoDa.Bar.C57_race_with_timeout"
   ],
   "note": ""
  },
  {
   "property": "C58",
   "status": "proved",
   "theorems": [
    "SoDa.Bar.C58_texts"
   ],
   "note": ""
  },
  {
   "property": "C59",
   "status": "proved",
   "theorems": [
    "SoDa.Prop.C59_second_file",
    "SoDa.Prop.C59_file_not_found"
   ],
   "note": ""
  },
  {
   "property": "C60",
   "status": "partial",
   "theorems": [
    "SoDa.Prop.C60_texts_partial",
    "SoDa.Prop.C60_refuted",
    "SoDa.Prop.C60_path_name"
   ],
   "note": "Proved: the exact texts. Refuted: the format of BadPropertyType contains \"2\" instead of \"%2\", so the type is never named."
  },
  {
   "property": "C61",
   "status": "proved",
   "theorems": [
    "SoDa.Prop.C61_string",
    "SoDa.Prop.C61_int"
   ],
   "note": ""
  },
  {
   "property": "C62",
   "status": "proved",
   "theorems": [
    "SoDa.Prop.C62_normal_iff",
    "SoDa.Prop.C62_tree",
    "SoDa.Prop.C62_stops",
    "SoDa.Prop.C62_top_sequence"
   ],
   "note": "With yaml-cpp as described in DESIGN.md; 'only if' assumes the yaml-cpp versions in which a null key cannot be converted to a string."
  },
  {
   "property": "C63",
   "status": "proved",
   "theorems": [
    "SoDa.Prop.C63_key_lines",
    "SoDa.Prop.C63_item_lines",
    "SoDa.Prop.C63_flat"
   ],
   "note": ""
  },
  {
   "property": "C64",
   "status": "proved",
   "theorems": [
    "SoDa.Session.C64_all_messages",
    "SoDa.Session.C64_echo",
    "SoDa.Session.C64_barrier_needed"
   ],
   "note": ""
  },
  {
   "property": "C65",
   "status": "proved",
   "theorems": [
    "SoDa.C65_addF_scientific",
    "SoDa.C65_large_arguments"
   ],
   "note": ""
  },
  {
   "property": "C66",
   "status": "proved",
   "theorems": [
    "SoDa.C66_addF_general"
   ],
   "note": ""
  },
  {
   "property": "C67",
   "status": "proved",
   "theorems": [
    "SoDa.C67_addF_unknown"
   ],
   "note": ""
  },
  {
   "property": "C68",
   "status": "partial",
   "theorems": [
    "SoDa.Ext.C68_chain_partial",
    "SoDa.Ext.C68_program_partial",
    "SoDa.Ext.C68_copies_partial",
    "SoDa.Ext.C68_refuted",
    "SoDa.Ext.C68_dangling",
    "SoDa.Ext.C68_assign"
   ],
   "note": "Proved for programs without copies and assignments of formatters; exact behaviour with copies in C68_copies_partial. Refuted: the implicit copy keeps saved_ptr, so y.addC('a').addC('b') on a copy y of x puts b into x, and is undefined if x is gone (C68_dangling)."
  },
  {
   "property": "C69",
   "status": "partial",
   "theorems": [
    "SoDa.Ext.C69_exact",
    "SoDa.Ext.C69_same_partial",
    "SoDa.Ext.C69_refuted"
   ],
   "note": "Proved for all methods, addU below 2^32. Refuted: Format_ext::addU takes unsigned int and drops the upper 32 bits. C69_exact: the texts agree exactly for values below 2^32."
  },
  {
   "property": "C70",
   "status": "proved",
   "theorems": [
    "SoDa.MailBase.C70_convert"
   ],
   "note": ""
  },
  {
   "property": "C71",
   "status": "partial",
   "theorems": [
    "SoDa.MailBase.C71_text_partial",
    "SoDa.MailBase.C71_refuted"
   ],
   "note": "Proved: the exact text. Refuted: the 'from' type is that of the pointer, always shared_ptr<MailBoxBase>."
  },
  {
   "property": "C72",
   "status": "partial",
   "theorems": [
    "SoDa.C72_round_partial",
    "SoDa.C72_binary64_partial",
    "SoDa.C72_hangs",
    "SoDa.C72_refuted",
    "SoDa.C72_more_digits_partial"
   ],
   "note": "Proved: exact arithmetic, all positive values; binary64, 1 to 9 digits, 1e-290 to 1e290, error bound 2e-13 on top of half a unit. C72_more_digits_partial: ten and eleven digits, for smaller ranges. Refuted: for zero and negative values the loop never ends."
  },
  {
   "property": "C73",
   "status": "proved",
   "theorems": [
    "SoDa.Opts.C73_double_values",
    "SoDa.Opts.C73_nearest"
   ],
   "note": "Extraction of a double as libstdc++ does it in the C locale (hexadecimal numbers, inf and nan are not accepted by it)."
  },
  {
   "property": "C74",
   "status": "proved",
   "theorems": [
    "SoDa.Opts.C74_roundtrip_scientific",
    "SoDa.Opts.C74_roundtrip_general",
    "SoDa.Opts.C74_sharp"
   ],
   "note": "The bounds 16 and 17 suffice for all finite doubles; C74_sharp shows that 15 fraction digits do not."
  },
  {
   "property": "C75",
   "status": "proved",
   "theorems": [
    "SoDa.Opts.C75_signed_values",
    "SoDa.Opts.C75_addI_roundtrip",
    "SoDa.Opts.C75_int"
   ],
   "note": ""
  },
  {
   "property": "C76",
   "status": "partial",
   "theorems": [
    "SoDa.Opts.C76_refuted_always",
    "SoDa.Opts.C76_unsigned_partial",
    "SoDa.Opts.C76_refuted",
    "SoDa.Opts.C76_addU_roundtrip_partial",
    "SoDa.Opts.C76_default_partial"
   ],
   "note": "Proved: exactly the integers of magnitude below 2^b are accepted and stored modulo 2^b; addU in decimal is read back. Refuted: an option without default takes -1 and stores 2^b-1. C76_refuted_always: with a leading space -1 is accepted by every unsigned option. C76_default_partial: an option with a default does refuse negative numbers (they are taken for switches)."
  },
  {
   "property": "C77",
   "status": "proved",
   "theorems": [
    "SoDa.Opts.C77_char_values"
   ],
   "note": ""
  },
  {
   "property": "C78",
   "status": "proved",
   "theorems": [
    "SoDa.Opts.C78_diagnostics"
   ],
   "note": "Assumes that names, messages and tokens contain no null character (what() ends at it)."
  },
  {
   "property": "C79",
   "status": "partial",
   "theorems": [
    "SoDa.Opts.C79_refused_partial",
    "SoDa.Opts.C79_refuted"
   ],
   "note": "Proved: the token is refused as unknown name and nothing is changed. Refuted: the form the header shows is not implemented."
  },
  {
   "property": "C80",
   "status": "proved",
   "theorems": [
    "SoDa.Bar.C80_accesses_writes",
    "SoDa.Bar.C80_accesses_reads",
    "SoDa.Bar.C80_only_line_58",
    "SoDa.Bar.C80_no_data_race",
    "SoDa.Bar.C80_race_with_surplus",
    "SoDa.Bar.C80_race_with_timeout"
   ],
   "note": "Happens-before is defined for one mutex; that accesses() lists every access of the model is proved (C80_accesses_writes, C80_accesses_reads). C57 is the weaker form about simultaneously enabled accesses."
  },
  {
   "property": "C81",
   "status": "proved",
   "theorems": [
    "SoDa.Bar.C81_ordering"
   ],
   "note": ""
  },
  {
   "property": "C82",
   "status": "proved",
   "theorems": [
    "SoDa.Mail.C82_no_data_race",
    "SoDa.Mail.C82_ordering"
   ],
   "note": "Relies on the reading that every public method of MailBox holds the mutex for its whole body (built into the model)."
  },
  {
   "property": "C83",
   "status": "proved",
   "theorems": [
    "SoDa.Bar.C83_no_lost_wakeup",
    "SoDa.Bar.C83_stuck",
    "SoDa.Bar.C83_settles"
   ],
   "note": ""
  },
  {
   "property": "C84",
   "status": "proved",
   "theorems": [
    "SoDa.Opts.C84_float_values",
    "SoDa.Opts.C84_nearest"
   ],
   "note": ""
  },
  {
   "property": "C85",
   "status": "proved",
   "theorems": [
    "SoDa.Opts.C85_roundtrip_scientific",
    "SoDa.Opts.C85_roundtrip_general",
    "SoDa.Opts.C85_sharp"
   ],
   "note": ""
  },
  {
   "property": "C86",
   "status": "proved",
   "theorems": [
    "SoDa.Prop.C86_signed",
    "SoDa.Prop.C86_unsigned",
    "SoDa.Prop.C86_double",
    "SoDa.Prop.C86_float",
    "SoDa.Prop.C86_bool",
    "SoDa.Prop.C86_char"
   ],
   "note": ""
  },
  {
   "property": "C87",
   "status": "proved",
   "theorems": [
    "SoDa.MailTest.C87_returns_zero",
    "SoDa.MailTest.C87_no_exception",
    "SoDa.MailTest.C87_received",
    "SoDa.MailTest.C87_empty",
    "SoDa.MailTest.C87_bounded",
    "SoDa.MailTest.C87_can_finish",
    "SoDa.MailTest.C87_deadline_matters"
   ],
   "note": "C87_deadline_matters: a thread that does reach its deadline at the barrier ends the program with an exception. Parameters are natural numbers; the int product on lines 63 and 67 is assumed not to overflow."
  },
  {
   "property": "C88",
   "status": "proved",
   "theorems": [
    "SoDa.C88_relative",
    "SoDa.C88_zero",
    "SoDa.FmtTest.C88_test_passes",
    "SoDa.FmtTest.C88_big_test"
   ],
   "note": "The arithmetic of the test itself is modelled in binary64; pow(10,-p) may return anything not below the exact power by more than one part in 2^52. The random numbers and the multiplication by powers of ten are parameters (any list of values)."
  },
  {
   "property": "C89",
   "status": "proved",
   "theorems": [
    "SoDa.Opts.C89_signed",
    "SoDa.Opts.C89_unsigned",
    "SoDa.Opts.C89_double",
    "SoDa.Opts.C89_float",
    "SoDa.Opts.C89_char",
    "SoDa.Opts.C89_bool",
    "SoDa.Opts.C89_test",
    "SoDa.Opts.C89_others"
   ],
   "note": ""
  },
  {
   "property": "C90",
   "status": "proved",
   "theorems": [
    "SoDa.BarTest.C90_defined",
    "SoDa.BarTest.C90_no_exception",
    "SoDa.BarTest.C90_in_step",
    "SoDa.BarTest.C90_all_pass",
    "SoDa.BarTest.C90_exit_code",
    "SoDa.BarTest.C90_bounded",
    "SoDa.BarTest.C90_goes_on",
    "SoDa.BarTest.C90_timeout_unnoticed",
    "SoDa.BarTest.C90_arguments",
    "SoDa.BarTest.C90_parse_defined",
    "SoDa.BarTest.C90_refuses"
   ],
   "note": "C90_timeout_unnoticed: an execution in which a thread catches an exception and the exit code is 0; CTest looks at the output instead (C95). In executions with deadlines the barrier has a data race (C57), so C++ promises nothing for them; the model continues with an atomic read."
  },
  {
   "property": "C91",
   "status": "proved",
   "theorems": [
    "SoDa.Bar.C91_somebody_missing",
    "SoDa.Bar.C91_rounds",
    "SoDa.Bar.C91_released",
    "SoDa.Bar.C91_no_race",
    "SoDa.Bar.C91_within",
    "SoDa.Bar.C91_no_data_race",
    "SoDa.Bar.C91_ordering",
    "SoDa.Session.C91_all_messages",
    "SoDa.MailTest.C91_mailbox_test",
    "SoDa.BarTest.C91_barrier_test"
   ],
   "note": "A thread has entered when it has got the mutex and executed waiting++ (line 62); the deadline of wait_for is taken to be at least the timeout after that moment. C91_within is the form with times."
  },
  {
   "property": "C92",
   "status": "proved",
   "theorems": [
    "SoDa.PropMem.C92_one_tree",
    "SoDa.PropMem.C92_separate",
    "SoDa.PropMem.C92_make",
    "SoDa.PropMem.C92_load",
    "SoDa.PropMem.C92_read",
    "SoDa.PropMem.C92_others",
    "SoDa.PropMem.C92_nodes",
    "SoDa.PropMem.C92_path_name",
    "SoDa.PropMem.C92_node_get",
    "SoDa.PropMem.C92_getProp",
    "SoDa.PropMem.C92_get",
    "SoDa.PropMem.C92_dump"
   ],
   "note": ""
  },
  {
   "property": "C93",
   "status": "partial",
   "theorems": [
    "SoDa.PropMem.C93_same",
    "SoDa.PropMem.C93_stays",
    "SoDa.PropMem.C93_one_tree",
    "SoDa.PropMem.C93_refuted_always",
    "SoDa.PropMem.C93_refuted",
    "SoDa.PropMem.C93_partial"
   ],
   "note": "Violated: the implicit copy constructor and assignment copy the pointer to the root, so that both objects have the same nodes (C93_same, C93_stays) and every reading that changes the tree of one changes that of the other (C93_refuted_always). C93_partial: objects that do not share their root are independent."
  },
  {
   "property": "C94",
   "status": "proved",
   "theorems": [
    "SoDa.PropMem.C94_count",
    "SoDa.PropMem.C94_used",
    "SoDa.PropMem.C94_all_lost",
    "SoDa.PropMem.C94_read_again"
   ],
   "note": "Describes the memory leak; documents with a mistake are counted by C124_count."
  },
  {
   "property": "C95",
   "status": "proved",
   "theorems": [
    "SoDa.BarTest.C95_words",
    "SoDa.BarTest.C95_fast",
    "SoDa.BarTest.C95_should_timeout",
    "SoDa.BarTest.C95_fast_fails",
    "SoDa.BarTest.C95_conservative",
    "SoDa.BarTest.C95_may_pass",
    "SoDa.BarTest.C95_may_time_out",
    "SoDa.BarTest.C95_barrier_arguments",
    "SoDa.MailTest.C95_mailbox_silent",
    "SoDa.MailTest.C95_mailbox_pass",
    "SoDa.MailTest.C95_mailbox_arguments",
    "SoDa.MailTest.C95_mailbox_verdict",
    "SoDa.MailTest.C95_mailbox_complains",
    "SoDa.MailTest.C95_mailbox_options"
   ],
   "note": "The output of BarrierTest is modelled chunk by chunk (one operator<<), chunks of different threads interleaved arbitrarily; CTest is modelled as a search for a fixed text and a test of the exit code. For MailBoxTest it is proved that no step of a thread is one that writes; the text main writes is modelled as one text. Times are not modelled: which outcome is likely is not stated."
  },
  {
   "property": "C96",
   "status": "proved",
   "theorems": [
    "SoDa.Bar.C96_destroyed",
    "SoDa.Bar.C96_kept",
    "SoDa.Bar.C96_last"
   ],
   "note": "The reference count itself is that of std::shared_ptr and trusted."
  },
  {
   "property": "C97",
   "status": "proved",
   "theorems": [
    "SoDa.BarProg.C97_every_order",
    "SoDa.BarProg.C97_phases",
    "SoDa.BarProg.C97_program_order",
    "SoDa.BarProg.C97_join",
    "SoDa.BarProg.C97_fork",
    "SoDa.BarProg.C97_all_executed",
    "SoDa.BarProg.C97_not_aborted",
    "SoDa.BarProg.C97_goes_on",
    "SoDa.BarProg.C97_bounded",
    "SoDa.BarProg.C97_can_end",
    "SoDa.BarProg.C97_deadlines",
    "SoDa.BarProg.C97_example",
    "SoDa.BarProg.C97_example_ends"
   ],
   "note": "Statements of the program's own are indivisible and do not touch the barrier. C97_phases holds for all scripts, not only those of the form ForkJoin. Spurious wake-ups are counted in the bound. exit(0) at the end of the example is not modelled further."
  },
  {
   "property": "C98",
   "status": "partial",
   "theorems": [
    "SoDa.C98_ignored_partial",
    "SoDa.C98_zero_partial",
    "SoDa.C98_exact",
    "SoDa.C98_refuted"
   ],
   "note": "Violated: the separator is used only for zero in notation 'e' (Format.cxx:440); everywhere else the point is a literal or the stream's. C98_exact says for every value when the claim holds, C98_ignored_partial that the separator is ignored otherwise."
  },
  {
   "property": "C99",
   "status": "partial",
   "theorems": [
    "SoDa.C99_fsg_width_partial",
    "SoDa.C99_sci_partial",
    "SoDa.C99_nan_inf_refuted",
    "SoDa.C99_fixed_exact",
    "SoDa.C99_refuted",
    "SoDa.C99_eng_partial",
    "SoDa.C99_general_exact",
    "SoDa.C99_eng_no_digits_partial"
   ],
   "note": "Violated: width 0 is replaced by significant_digits + 4 (addF(1.0) inserts \"1.000000  \"). C99_fixed_exact: exactly when it holds in notation 'f'; C99_sci_partial: always in 's'; C99_eng_partial: in 'e' exactly for exponents of two or more digits; C99_nan_inf_refuted: never for NaN and infinities. C99_general_exact: exactly when it holds in 'g'. C99_eng_no_digits_partial: d = 0 in 'e'."
  },
  {
   "property": "C100",
   "status": "partial",
   "theorems": [
    "SoDa.C100_fsg_partial",
    "SoDa.C100_nan_inf_partial",
    "SoDa.C100_eng_partial",
    "SoDa.C100_zero_exact",
    "SoDa.C100_refuted"
   ],
   "note": "Holds in notations 'f', 's' and 'g' and for NaN and infinities (widths below 2^31). Violated in 'e': the text is always longer than the width (C100_eng_partial: the sign, the point or the width of the exponent is not counted), and zero ignores the width (C100_zero_exact)."
  },
  {
   "property": "C101",
   "status": "partial",
   "theorems": [
    "SoDa.C101_all_exact",
    "SoDa.C101_digits_exact_partial",
    "SoDa.C101_digits_binary64_partial",
    "SoDa.C101_exact",
    "SoDa.C101_refuted"
   ],
   "note": "Violated: a value that is rounded up to exactly a power of ten gets one digit more (getIntPartWidth counts the digits of 10, 100, 1000 as those of 9, 99, 999), and with fewer digits than the integer part has, this has zeros instead. C101_exact, C101_all_exact: exactly when it holds with exact arithmetic (one to ten digits). C101_digits_*_partial: the number of digits in all cases (exact arithmetic; doubles with at most nine digits)."
  },
  {
   "property": "C102",
   "status": "partial",
   "theorems": [
    "SoDa.Bar.C102_safe_to_destroy",
    "SoDa.Bar.C102_refuted",
    "SoDa.Bar.C102_all_ended_partial"
   ],
   "note": "Violated: a thread may return from wait while others are still about to lock the mutex again (C102_refuted; the header does not say when a barrier may be destroyed). C102_safe_to_destroy says exactly when it is safe, C102_all_ended_partial: when all calls have ended."
  },
  {
   "property": "C103",
   "status": "partial",
   "theorems": [
    "SoDa.Opts.C103_replies_partial",
    "SoDa.Opts.C103_alone",
    "SoDa.Opts.C103_targets",
    "SoDa.Opts.C103_copies_share",
    "SoDa.Opts.C103_refuted",
    "SoDa.Opts.C103_presence"
   ],
   "note": "Violated for copies: the implicit copy constructor copies shared_ptrs, so a copy and its original have the same option objects and report the same options as present (C103_copies_share), whichever of them parsed (C103_refuted). What copies report as present is described exactly (C103_presence): what was ever given to any object that shares the registration. Everything else holds for copies too (C103_replies_partial); objects that are neither copied nor assigned are fully independent (C103_alone, C103_targets)."
  },
  {
   "property": "C104",
   "status": "partial",
   "theorems": [
    "SoDa.Prop.C104_exact",
    "SoDa.Prop.C104_missing_or_readable_partial",
    "SoDa.Prop.C104_refuted"
   ],
   "note": "Violated by readFile: only YAML::BadFile is translated; files that are not YAML, and documents that fillRecurse cannot handle, end in exceptions of yaml-cpp, which are not derived from SoDa::Exception. C104_exact: exactly when."
  },
  {
   "property": "C105",
   "status": "partial",
   "theorems": [
    "SoDa.Mail.C105_separate",
    "SoDa.Mail.C105_fresh_partial",
    "SoDa.Mail.C105_exact",
    "SoDa.Mail.C105_refuted"
   ],
   "note": "The first half holds (C105_separate). The second is violated: subscriptions are compared by the address of the mailbox, so one that is left over from a destroyed mailbox is accepted by a mailbox constructed at the same address (for example a std::optional that is emplaced again), and destroying it ends the subscription of somebody else. C105_exact: refused exactly if the addresses differ; C105_fresh_partial: programs that use no address twice."
  },
  {
   "property": "C106",
   "status": "partial",
   "theorems": [
    "SoDa.CTest.C106_split_exact",
    "SoDa.CTest.C106_hex_exact",
    "SoDa.CTest.C106_format_exact",
    "SoDa.CTest.C106_options_exact",
    "SoDa.CTest.C106_refuted",
    "SoDa.CTest.C106_noticed_partial"
   ],
   "note": "Violated: OptionsTest always returns 0 and CTest does not look for its FAIL, so OptionsTestSimple passes whatever the library does (and it compares no positional argument: std::list::merge has emptied the list of the expected ones); FormatHexTest has two equal keys in a std::map, so the second text is never checked; SplitTest does not notice missing tokens of split or additional ones of splitVec. The _exact theorems say for all answers when each test passes."
  },
  {
   "property": "C107",
   "status": "partial",
   "theorems": [
    "SoDa.Mail.C107_delivery",
    "SoDa.Mail.C107_common_order",
    "SoDa.Mail.C107_received",
    "SoDa.Mail.C107_not_blocked",
    "SoDa.Mail.C107_exact",
    "SoDa.Mail.C107_no_effect_partial",
    "SoDa.Mail.C107_put_exact",
    "SoDa.Mail.C107_refuted_put",
    "SoDa.Mail.C107_refuted_subscribe",
    "SoDa.Mail.C107_refuted"
   ],
   "note": "Delivery, common order and progress hold with calls that run out of memory anywhere in the history (C107_delivery, C107_common_order, C107_not_blocked). That a failing call has no effect is violated twice: a put that fails on the way has already reached the subscribers with smaller ids (C107_put_exact, C107_refuted_put), and a subscribe that fails when it makes the queue destroys the subscription object while it holds the mutex, so that unsubscribe locks the mutex a second time: undefined, in practice a deadlock (C107_refuted_subscribe). C107_exact: exactly these two calls break it; C107_no_effect_partial: all other calls."
  },
  {
   "property": "C108",
   "status": "partial",
   "theorems": [
    "SoDa.Examples.C108_names",
    "SoDa.Examples.C108_shows_partial",
    "SoDa.Examples.C108_lone_int",
    "SoDa.Examples.C108_refuses",
    "SoDa.Examples.C108_user",
    "SoDa.Examples.C108_user_lone",
    "SoDa.Examples.C108_refuted"
   ],
   "note": "Violated: after a first command line that ends in a lone -i (accepted without a message), the option still waits for a signed value when the second line is read, so \"--intarg\" is taken for its value; C108_lone_int says what happens then for every such line. C108_shows_partial: all other accepted lines. C108_refuses: the lines that are not accepted."
  },
  {
   "property": "C109",
   "status": "proved",
   "theorems": [
    "SoDa.Examples.C109_status_zero",
    "SoDa.Examples.C109_lines",
    "SoDa.Examples.C109_otherwise"
   ],
   "note": ""
  },
  {
   "property": "C110",
   "status": "proved",
   "theorems": [
    "SoDa.C110_format",
    "SoDa.C110_addU",
    "SoDa.C110_addI",
    "SoDa.C110_addF",
    "SoDa.C110_split",
    "SoDa.Opts.C110_options",
    "SoDa.PropMem.C110_tree",
    "SoDa.Prop.C110_tree"
   ],
   "note": ""
  },
  {
   "property": "C111",
   "status": "partial",
   "theorems": [
    "SoDa.Opts.C111_line",
    "SoDa.Opts.C111_every_line",
    "SoDa.Opts.C111_thrown",
    "SoDa.Opts.C111_pure",
    "SoDa.Opts.C111_lines_partial",
    "SoDa.Opts.C111_lines_exact",
    "SoDa.Opts.C111_refuted"
   ],
   "note": "Violated for the lines after one that ended within an option of a signed type (its value was refused, missing, or its test function threw): every token of all later lines is then a positional word (C111_lines_exact). C111_lines_partial: all other sequences of lines. C111_line, C111_thrown: one line, for all test functions. C111_pure: with test functions that only look at the value this is the model of the other properties."
  },
  {
   "property": "C112",
   "status": "partial",
   "theorems": [
    "SoDa.Mail.C112_alive",
    "SoDa.Mail.C112_destroyed",
    "SoDa.Mail.C112_once",
    "SoDa.Mail.C112_where",
    "SoDa.Mail.C112_refuted",
    "SoDa.Mail.C112_unlocked_partial",
    "SoDa.Mail.C112_mailbox",
    "SoDa.Mail.C112_close"
   ],
   "note": "Violated in one part: clear, unsubscribe and the destruction of a subscription destroy messages with the mutex held (C112_refuted; C112_where says exactly when). C112_unlocked_partial: programs without these calls. Everything else holds for all programs: C112_alive, C112_destroyed, C112_once, C112_close; C112_mailbox: the mailbox itself behaves as in C40 to C47."
  },
  {
   "property": "C113",
   "status": "partial",
   "theorems": [
    "SoDa.Bar.C113_forget",
    "SoDa.Bar.C113_not_early",
    "SoDa.Bar.C113_in_time",
    "SoDa.Bar.C113_expires",
    "SoDa.Bar.C113_asked_partial",
    "SoDa.Bar.C113_at_once",
    "SoDa.Bar.C113_exact",
    "SoDa.Bar.C113_refuted"
   ],
   "note": "Violated for large arguments of wait(unsigned long): C113_refuted, C113_at_once; C113_exact says for which arguments the exception may come too early (2^64 - 9223372036854 ms and more: at once) and for which the computation of the deadline is undefined (all others whose deadline is after the end of a 63-bit clock). C113_asked_partial: all arguments whose deadline is before the end of the clock. C113_not_early, C113_in_time and C113_expires hold for all durations."
  },
  {
   "property": "C114",
   "status": "partial",
   "theorems": [
    "SoDa.C114_retried",
    "SoDa.C114_reset_again",
    "SoDa.C114_fails",
    "SoDa.C114_after",
    "SoDa.C114_exact",
    "SoDa.C114_refuted",
    "SoDa.C114_unchanged_partial",
    "SoDa.C114_reset_refuted",
    "SoDa.C114_reset_after"
   ],
   "note": "Trying again is safe (C114_retried, C114_reset_again). That a failing call changes nothing is violated: an insertion that fails on the way has filled the placeholders before (C114_refuted; C114_fails, C114_after and C114_exact say exactly when it fails, what is printed then, and when nothing is changed), and a failing reset has already dropped the segments (C114_reset_refuted; C114_reset_after: a beginning of the text without values is printed). C114_unchanged_partial: str, and insertions of at most 15 characters or with at most one placeholder."
  },
  {
   "property": "C115",
   "status": "partial",
   "theorems": [
    "SoDa.Opts.C115_retried",
    "SoDa.Opts.C115_unchanged_partial",
    "SoDa.Opts.C115_target_only",
    "SoDa.Opts.C115_half",
    "SoDa.Opts.C115_exact",
    "SoDa.Opts.C115_refuted",
    "SoDa.Opts.C115_half_refuted"
   ],
   "note": "Trying again is safe (C115_retried). That a failing registration cannot be noticed is violated: the target variable has already been set (C115_refuted), and when there is no memory for the entry of the letter the option is known by its long name but not by its letter (C115_half, C115_half_refuted). C115_target_only: before that entry nothing but the target changes; C115_unchanged_partial: nothing at all if the target already has its initial value. C115_exact: for an option with a new name this is exactly when it cannot be noticed."
  },
  {
   "property": "C116",
   "status": "partial",
   "theorems": [
    "SoDa.Opts.C116_again_exact",
    "SoDa.Opts.C116_again_any",
    "SoDa.Opts.C116_prefix",
    "SoDa.Opts.C116_between",
    "SoDa.Opts.C116_again_partial",
    "SoDa.Opts.C116_refuted",
    "SoDa.Opts.C116_positional_refuted"
   ],
   "note": "C116_prefix and C116_between hold as stated. That parsing again gives what the call would have given is violated: positional arguments and vector elements come twice (C116_refuted), and after a failure between the switch and the value of an option of a signed type everything is taken for a positional argument (C116_positional_refuted). C116_again_exact says exactly when parsing again is right, for failures at every point of the loop: nothing positional and no vector element before the failure, and no value of a signed type expected. C116_again_any: the same for lines given as a string or as argv, in both styles. The hypothesis that converting a bad text twice leaves what converting it once leaves is proved for every modelled type (settles_types). C116_again_partial is the older special case."
  },
  {
   "property": "C117",
   "status": "partial",
   "theorems": [
    "SoDa.C117_ten_partial",
    "SoDa.C117_exact",
    "SoDa.C117_undefined",
    "SoDa.C117_refuted"
   ],
   "note": "Violated: fractionate collects the digits after the point in an int. C117_exact: with exact arithmetic the call is undefined exactly if the digits after the point, read as a number, are 2^31 or more. C117_undefined: for doubles with p digits before the point and a fraction of at least 0.2148 (not within 0.0001 of the next integer) every d >= p + 10 is undefined, for example addF(1.5,'e',0,11) (C117_refuted). C117_ten_partial: up to ten digits never."
  },
  {
   "property": "C118",
   "status": "proved",
   "theorems": [
    "SoDa.FThr.C118_conflict",
    "SoDa.FThr.C118_race",
    "SoDa.FThr.C118_alone",
    "SoDa.FThr.C118_same",
    "SoDa.FThr.C118_own",
    "SoDa.FThr.C118_readers",
    "SoDa.FThr.C118_race_matters",
    "SoDa.FThr.C118_example"
   ],
   "note": ""
  },
  {
   "property": "C119",
   "status": "proved",
   "theorems": [
    "SoDa.Bar.C119_returns",
    "SoDa.Bar.C119_ends",
    "SoDa.Bar.C119_fair_exists",
    "SoDa.Bar.C119_example",
    "SoDa.Bar.C119_ends_example"
   ],
   "note": ""
  },
  {
   "property": "C120",
   "status": "proved",
   "theorems": [
    "SoDa.Mail.C120_returns",
    "SoDa.Mail.C120_delivered",
    "SoDa.Mail.C120_example"
   ],
   "note": ""
  },
  {
   "property": "C121",
   "status": "proved",
   "theorems": [
    "SoDa.PropAlloc.C121_one_tree",
    "SoDa.PropAlloc.C121_read",
    "SoDa.PropAlloc.C121_enough",
    "SoDa.PropAlloc.C121_construct"
   ],
   "note": ""
  },
  {
   "property": "C122",
   "status": "partial",
   "theorems": [
    "SoDa.PropAlloc.C122_again_partial",
    "SoDa.PropAlloc.C122_again_exact",
    "SoDa.PropAlloc.C122_refuted"
   ],
   "note": "Violated: a reading that failed may already have put scalars of sequences into the list of the root, and trying again puts them there once more (C122_refuted). C122_again_partial: everything below keys is what it would have been, and which items the list has twice. C122_again_exact: trying again is right exactly if nothing had been put into the list of the root."
  },
  {
   "property": "C123",
   "status": "proved",
   "theorems": [
    "SoDa.PropMem.C123_alone",
    "SoDa.PropMem.C123_any_order",
    "SoDa.PropMem.C123_apart",
    "SoDa.PropMem.C123_writes",
    "SoDa.PropMem.C123_looks",
    "SoDa.PropMem.C123_copies"
   ],
   "note": ""
  },
  {
   "property": "C124",
   "status": "proved",
   "theorems": [
    "SoDa.PropMem.C124_mistake",
    "SoDa.PropMem.C124_tree",
    "SoDa.PropMem.C124_memory",
    "SoDa.PropMem.C124_count"
   ],
   "note": ""
  },
  {
   "property": "C125",
   "status": "partial",
   "theorems": [
    "SoDa.Prop.Graph.C125_exact",
    "SoDa.Prop.Graph.C125_normal",
    "SoDa.Prop.Graph.C125_same",
    "SoDa.Prop.Graph.C125_tree_partial",
    "SoDa.Prop.Graph.C125_refuted",
    "SoDa.Prop.C125_read",
    "SoDa.Prop.C125_tree"
   ],
   "note": "Violated: an alias may refer to an enclosing node (`&a {b: *a}`), and fillRecurse then calls itself for ever (C125_refuted). C125_exact: the reading ends exactly if no node is inside itself with no mistake before it; the calls are then nested at most one deeper than there are nodes. C125_normal: it ends without an exception exactly if all is fine. C125_tree: what is then read, from documents with circular aliases after a mistake too (C125_tree_partial: without circular aliases, as their unfolding)."
  },
  {
   "property": "C126",
   "status": "proved",
   "theorems": [
    "SoDa.Opts.C126_alone",
    "SoDa.Opts.C126_possible",
    "SoDa.Opts.C126_any_order",
    "SoDa.Opts.C126_apart",
    "SoDa.Opts.C126_writes",
    "SoDa.Opts.C126_looks",
    "SoDa.Opts.C126_result",
    "SoDa.Opts.C126_copies"
   ],
   "note": ""
  },
  {
   "property": "C127",
   "status": "partial",
   "theorems": [
    "SoDa.Mail.Guard.C127_protected",
    "SoDa.Mail.Guard.C127_inside",
    "SoDa.Mail.Guard.C127_refuted",
    "SoDa.Mail.Guard.C127_refuted_memory",
    "SoDa.Mail.Guard.C127_refuted_two",
    "SoDa.Mail.Guard.C127_partial",
    "SoDa.Mail.Guard.C127_progress",
    "SoDa.Mail.Guard.C127_mailbox",
    "SoDa.Mail.Guard.C127_delivery"
   ],
   "note": "Violated: a message that owns a subscription of its mailbox is destroyed by clear with the mutex held, and ~SubscriptionCl locks it again (C127_refuted); also subscribe out of memory (C127_refuted_memory) and two mailboxes whose messages call each other (C127_refuted_two). C127_partial, C127_progress, C127_mailbox: it holds if the destructors of messages call only mailboxes further up in some order. C127_protected needs no hypothesis."
  },
  {
   "property": "C128",
   "status": "partial",
   "theorems": [
    "SoDa.Opts.C128_line",
    "SoDa.Opts.C128_every_line",
    "SoDa.Opts.C128_depth",
    "SoDa.Opts.C128_partial",
    "SoDa.Opts.C128_signed",
    "SoDa.Opts.C128_include",
    "SoDa.Opts.C128_endless",
    "SoDa.Opts.C128_plain",
    "SoDa.Opts.C128_refuted"
   ],
   "note": "Violated: a line parsed by the test function of an option of a signed type is not read as a line, all its tokens are positional words (C128_refuted, C128_signed). C128_partial: it is if test functions of signed options parse none and the others at most one. C128_line with C128_every_line say what happens in every case; C128_include: options that name files; C128_endless: a file that includes itself; C128_plain: without use of the object this is the model of C111."
  },
  {
   "property": "C129",
   "status": "partial",
   "theorems": [
    "SoDa.C129_classic_partial",
    "SoDa.C129_written_partial",
    "SoDa.C129_addI_exact",
    "SoDa.C129_addU_exact",
    "SoDa.C129_fixed_partial",
    "SoDa.C129_fixed_same_partial",
    "SoDa.C129_real_partial",
    "SoDa.C129_real_exact",
    "SoDa.C129_engineering_partial",
    "SoDa.C129_engineering_exact",
    "SoDa.C129_refuted"
   ],
   "note": "Violated: C129_refuted (\"-1,234,567\", \"0x1,234\", field number \"%1,000\", \"1.234.567e+0\"). C129_classic_partial: same texts in locales without grouping and with a point. C129_addI_exact, C129_addU_exact, C129_real_exact (notations 'f', 's', 'g'): exactly when the text is the same; C129_written_partial, C129_fixed_partial, C129_real_partial: what is written. Notation 'e': C129_engineering_exact (same text exactly if none of the integer part, the written fraction and the exponent gets a separator), C129_engineering_partial."
  },
  {
   "property": "C130",
   "status": "partial",
   "theorems": [
    "SoDa.C130_same_partial",
    "SoDa.C130_addI_partial",
    "SoDa.C130_addU_partial",
    "SoDa.C130_real_partial",
    "SoDa.C130_grouped_exact",
    "SoDa.C130_real_exact",
    "SoDa.C130_crossed",
    "SoDa.C130_refuted",
    "SoDa.C130_point_ends",
    "SoDa.C130_point_separates",
    "SoDa.C130_zeros_exact",
    "SoDa.C130_hex",
    "SoDa.C130_engineering_partial"
   ],
   "note": "Violated: C130_refuted (\"1,234\" is 1 or 1234; in notation 'e' 1.234567 is written and read back as 1234567). C130_same_partial: texts without separators. C130_grouped_exact, C130_real_exact: which texts of digits and separators are taken by integer and floating point options. C130_addI_partial, C130_addU_partial, C130_real_partial (notations 'f', 's', 'g'): what is written in a locale is read in it; C130_zeros_exact: zeros as fill character; missing there: separators and other fill characters of addI/addU, base 8. C130_hex: hexadecimal texts are read as 0. C130_engineering_partial: notation 'e' if there is nothing to separate and the point is the usual one. C130_point_ends, C130_point_separates: numbers with a point '.' where the locale has another one, or separates digits by '.'. C130_crossed: written with separators, read in the \"C\" locale."
  },
  {
   "property": "C131",
   "status": "partial",
   "theorems": [
    "SoDa.Mail.C131_refuted",
    "SoDa.Mail.C131_safe_partial",
    "SoDa.Mail.C131_alive",
    "SoDa.Mail.C131_released",
    "SoDa.Mail.C131_exact"
   ],
   "note": "Violated: C131_refuted (a thread that resets its MailBoxPtr before its Subscription; alone always undefined, with a second thread depending on the order). C131_safe_partial: the claim for threads that keep a MailBoxPtr for every Subscription; C131_exact: exactly those, for threads whose variables are gone at the end. C131_alive, C131_released: the mailbox exists exactly while pointed to. At most 2^31-1 subscriptions in all (C47: overflow of the counter)."
  },
  {
   "property": "C132",
   "status": "partial",
   "theorems": [
    "SoDa.C132_help_partial",
    "SoDa.C132_help_width",
    "SoDa.C132_dump",
    "SoDa.C132_dump_plain_partial",
    "SoDa.C132_format",
    "SoDa.C132_not_good",
    "SoDa.C132_exact",
    "SoDa.C132_parse",
    "SoDa.C132_refuted",
    "SoDa.C132_dump_throws",
    "SoDa.C132_read_flat",
    "SoDa.C132_dump_read"
   ],
   "note": "Violated: C132_refuted (std::setw(8) before help, a scalar, an empty container). C132_help_partial, C132_dump_plain_partial: without a pending width. C132_help_width, C132_dump: any width. C132_exact: exactly when the claim holds (device without limit). C132_format: os << format is one field. C132_not_good: streams with errors. C132_parse: the messages of parse on std::cerr. C132_dump_throws: exactly when a tree that does not fit throws, for any exception mask; C132_dump_read: trees that have been read (as help)."
  },
  {
   "property": "C133",
   "status": "proved",
   "theorems": [
    "SoDa.C133_linearisable",
    "SoDa.C133_many"
   ],
   "note": ""
  },
  {
   "property": "C134",
   "status": "proved",
   "theorems": [
    "SoDa.C134_one_by_one",
    "SoDa.C134_local",
    "SoDa.C134_not_blocked"
   ],
   "note": ""
  },
  {
   "property": "C135",
   "status": "proved",
   "theorems": [
    "SoDa.C135_no_data_race",
    "SoDa.C135_ordering",
    "SoDa.C135_relay"
   ],
   "note": ""
  },
  {
   "property": "C136",
   "status": "proved",
   "theorems": [
    "SoDa.Bar.C136_zero",
    "SoDa.Bar.C136_one",
    "SoDa.Bar.C136_one_returns"
   ],
   "note": ""
  },
  {
   "property": "C137",
   "status": "proved",
   "theorems": [
    "SoDa.Together.C137_barrier",
    "SoDa.Together.C137_phases",
    "SoDa.Together.C137_mail",
    "SoDa.Together.C137_mail_no_race",
    "SoDa.Together.C137_bar_no_race"
   ],
   "note": ""
  },
  {
   "property": "C138",
   "status": "proved",
   "theorems": [
    "SoDa.Prop.C138_read",
    "SoDa.Prop.C138_dump",
    "SoDa.Prop.C138_lookup",
    "SoDa.Prop.C138_read_then_dump"
   ],
   "note": ""
  },
  {
   "property": "C139",
   "status": "proved",
   "theorems": [
    "SoDa.Together.C139_enough",
    "SoDa.Together.C139_barrier",
    "SoDa.Together.C139_all"
   ],
   "note": ""
  },
  {
   "property": "C140",
   "status": "proved",
   "theorems": [
    "SoDa.Together.C140_standstill",
    "SoDa.Together.C140_common_order",
    "SoDa.Together.C140_settles",
    "SoDa.Together.C140_opposite",
    "SoDa.Together.C140_completes",
    "SoDa.Together.C140_goes_on"
   ],
   "note": ""
  },
  {
   "property": "C141",
   "status": "proved",
   "theorems": [
    "SoDa.Together.C141_wait",
    "SoDa.Together.C141_mail",
    "SoDa.Together.C141_program"
   ],
   "note": ""
  },
  {
   "property": "C142",
   "status": "proved",
   "theorems": [
    "SoDa.Together.C142_program",
    "SoDa.Together.C142_starves",
    "SoDa.Bar.C142_wait_starves"
   ],
   "note": ""
  },
  {
   "property": "C143",
   "status": "partial",
   "theorems": [
    "SoDa.C143_addI_exact",
    "SoDa.C143_addI_sep_exact",
    "SoDa.C143_hex",
    "SoDa.C143_hex_option",
    "SoDa.C143_oct_exact",
    "SoDa.C143_dec_exact",
    "SoDa.C143_refuted"
   ],
   "note": "Violated: C143_refuted (\"000-42\" is 0, \"0x00ff\" is 0, \"0755\" is 755, \"1,234,567\" is 1). C143_addI_exact, C143_addI_sep_exact (separators that are no digits, padding with blanks), C143_oct_exact (no separators), C143_dec_exact (separators that are no digits, signs or white space): exactly when the number is read back. C143_hex, C143_hex_option: always 0."
  },
  {
   "property": "C144",
   "status": "partial",
   "theorems": [
    "SoDa.Prop.C144_based",
    "SoDa.Prop.C144_int_exact",
    "SoDa.Prop.C144_float",
    "SoDa.Prop.C144_float_as_int",
    "SoDa.Prop.C144_truncates",
    "SoDa.Prop.C144_point_first",
    "SoDa.Prop.C144_words",
    "SoDa.Prop.C144_document",
    "SoDa.Prop.C144_refuted"
   ],
   "note": "Violated: C144_refuted (\"0x1F\" is read as 0). C144_int_exact: exactly the integers in decimal, and 0. C144_based: octal and hexadecimal numbers are 0 for every type. C144_float: double and float. C144_float_as_int, C144_truncates, C144_point_first: numbers with point or exponent read as integers. C144_words: words. C144_document: from the document to the value."
  },
  {
   "property": "C145",
   "status": "partial",
   "theorems": [
    "SoDa.Prop.C145_same_partial",
    "SoDa.Prop.C145_decimal",
    "SoDa.Prop.C145_point_ends",
    "SoDa.Prop.C145_point_separates",
    "SoDa.Prop.C145_safe",
    "SoDa.Prop.C145_int_same",
    "SoDa.Prop.C145_int_separates",
    "SoDa.Prop.C145_refuted"
   ],
   "note": "Violated: C145_refuted (German locale: 144.200 is 144200, 3.14 is refused). C145_same_partial, C145_safe, C145_decimal: where the locale makes no difference. C145_point_ends: locales with another point that do not separate digits by '.'. C145_point_separates: locales that do, exactly when a number with a point is accepted and as what. C145_int_same, C145_int_separates: integer types. Not covered: values that are not YAML numbers and contain the separator (see C130)."
  },
  {
   "property": "C146",
   "status": "partial",
   "theorems": [
    "SoDa.Prop.C146_outcome",
    "SoDa.Prop.C146_signed",
    "SoDa.Prop.C146_unsigned",
    "SoDa.Prop.C146_double",
    "SoDa.Prop.C146_float",
    "SoDa.Prop.C146_bool",
    "SoDa.Prop.C146_text_partial",
    "SoDa.Prop.C146_default_exact",
    "SoDa.Prop.C146_default_unsigned",
    "SoDa.Prop.C146_default_bool",
    "SoDa.Prop.C146_default_double",
    "SoDa.Prop.C146_path",
    "SoDa.Prop.C146_path_types",
    "SoDa.Prop.C146_words",
    "SoDa.Prop.C146_refuted"
   ],
   "note": "Violated: C146_refuted (default port 8080 lost when the value is the word auto). C146_signed, C146_unsigned, C146_double, C146_float, C146_bool: exactly what is left in the variable. C146_text_partial: std::string and char keep it. C146_default_exact, C146_default_unsigned, C146_default_bool, C146_default_double: exactly when a default survives. C146_words: the words of YAML. C146_path: get<int> with a path never succeeds. C146_path_types: nor do other numbers and bool; std::string gets \"root\"."
  },
  {
   "property": "C147",
   "status": "partial",
   "theorems": [
    "SoDa.C147_accepts",
    "SoDa.C147_first",
    "SoDa.C147_sign",
    "SoDa.C147_exact",
    "SoDa.C147_decimal_exact",
    "SoDa.C147_usual_form",
    "SoDa.C147_option",
    "SoDa.C147_refuted"
   ],
   "note": "Violated: C147_refuted (5 is read as 53). C147_accepts: every text that is not blank is accepted. C147_first, C147_sign, C147_option: what is stored. C147_exact, C147_decimal_exact: the integers that are read as themselves, 53, 48 with a zero in front and 43 with a plus sign. C147_usual_form: without superfluous zeros only 53. Not covered: characters from 128 up."
  }
 ]
}