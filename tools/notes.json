{
 "C02": {
  "note": "The code has undefined behaviour on empty and all-space strings; the property states exactly when."
 },
 "C05": {
  "note": "Proved for any number of values, not only fewer than 2^32."
 },
 "C12": {
  "note": "True for v >= 0 and for negative values whose digit count is not a multiple of three. Refuted otherwise: addI(-123,0,',') prints -,123. C12_exact: for a separator other than a digit or '-', the claim holds for v if and only if v >= 0 or the digit count is not a multiple of three."
 },
 "C16": {
  "note": "Also shown: what happens for group size 0 (a trailing separator)."
 },
 "C17": {
  "note": "Proved for strings shorter than 2^31 and widths above INT_MIN. Refuted for INT_MIN (signed overflow) and for strings of 2^32 characters (int conversion). C17_exact states for which widths and strings the claim holds, as an equivalence."
 },
 "C20": {
  "note": "Proved for d >= 1 and any monotone rounding. Refuted for d = 0: addF(20.0,'e',0,0) inserts ' 0 e+0 '. C20_no_digits_partial: with no digits the text reads as zero or as twice the number (addF(5.0,'e',0,0) inserts ' 10e+0 '). C20_exponent_binary64: the exponent of a double fits into an int."
 },
 "C21": {
  "note": "Proved: 1..999, or 1000 with a zero fraction. Refuted as stated: addF(995.0,'e',0,2) inserts ' 1000e+0 '. C21_exact (exact arithmetic, 1 to 10 digits): the claim holds if and only if no rounding carries to a power of 1000."
 },
 "C22": {
  "note": "Proved in full for exact arithmetic; for binary64 within 0.502 units for 1e-304..1e304 and d <= 9, within 0.51 units for ten digits and 1e-293..1e293, and for eleven and 1e-23..1e23. Refuted for the subnormal 2^-1072 (error 0.6 units)."
 },
 "C23": {
  "note": "The exact set is proved: for every double and any number of digits the call ends if and only if 2*2^-1074 < |v| < hangFrom(d) (a table; 1.79768813e308 for six digits); up to ten digits it then returns without undefined behaviour. Outside it never ends, e.g. for the smallest subnormal and for the largest double (refuted)."
 },
 "C31": {
  "note": "Proved: parse returns true and every target, positional and presence flag is as after the preceding tokens. Refuted: the dangling option is not marked present. C31_exact: the option is present afterwards exactly if it was before or occurs in the preceding tokens."
 },
 "C32": {
  "note": "Proved unless the earlier line ended within an option of a signed type. Refuted for that case: afterwards every token is taken as a positional, for ever. C32_exact: the next line is read as if it were the first exactly if the earlier one did not end that way."
 },
 "C33": {
  "note": "Proved for scalars of signed types. Refuted for vectors: '--list -3' is rejected as an unknown switch. C33_exact, C33_vectors_refuted: it holds for no vector and no negative number."
 },
 "C36": {
  "note": "Proved for every index other than numPosArgs(). Refuted there: the vector is read out of bounds (undefined behaviour). C36_exact is the equivalence."
 },
 "C38": {
  "note": "Spaces around the items are allowed; keys and values must be non-empty, free of ',' and '=', without doubled or outer spaces."
 },
 "C43": {
  "note": "Counts for histories in which no null message is put (a null message is counted too, but cannot be told from an empty mailbox)."
 },
 "C47": {
  "note": "Proved for histories without an explicit unsubscribe(id) of that id. Refuted: unsubscribe(id) followed by dropping the Subscription throws out of a destructor (std::terminate); dropping after the mailbox is destroyed is undefined. C47_exact: dropping is safe exactly if the subscription has not been ended before, otherwise std::terminate. C47_after_destruction: in every program, dropping a subscription while no mailbox exists at its address is undefined."
 },
 "C48": {
  "note": "For n < 2^32 (num_waiters is an unsigned int); the generation counter may wrap any number of times."
 },
 "C49": {
  "note": "Bounded termination of every schedule of the threads' own statements, no deadlock, next call possible; spurious wake-ups may have happened before."
 },
 "C50": {
  "note": "Proved: Timeout at most once, Corrupt only after it, nobody gets an exception before its own deadline. Refuted: a later arrival can pass the barrier alone, as can the timed-out thread when it tries again; and C50_others_return_partial shows the opposite of the claim in every execution in which the barrier does not fill: no other sleeping thread gets any exception and all of them return normally."
 },
 "C51": {
  "note": "Stated for the number a of calls made so far. Proved when no generation ends between a thread's unlocked read and its arrival; without that assumption the returns exceed the claimed bound by at most the number of such overtakings; fewer threads than the barrier is for never pass. Refuted as claimed: three threads all pass a barrier for two."
 },
 "C56": {
  "note": "Proved: the exact texts. Refuted: the format string of SubscriptionMismatch has no field, so the other mailbox is never named."
 },
 "C52": {
  "note": "Proved: exactly when getProp returns a node. Refuted at every path of every tree: the search never descends, the node returned is always the one it began at, so get reads the root's own value 'root'."
 },
 "C53": {
  "note": "Proved for one-component paths and for every path with a component that is not a key of the root. Refuted: in {a: x, b: y} the path a:b is 'found'; a blank path is undefined behaviour. C53_exact: PropertyNotFound exactly if some component is not a key of the root, otherwise the value of the root is read."
 },
 "C60": {
  "note": "Proved: the exact texts. Refuted: the format of BadPropertyType contains \"2\" instead of \"%2\", so the type is never named."
 },
 "C62": {
  "note": "With yaml-cpp as described in DESIGN.md; 'only if' assumes the yaml-cpp versions in which a null key cannot be converted to a string."
 },
 "C68": {
  "note": "Proved for programs without copies and assignments of formatters; exact behaviour with copies in C68_copies_partial. Refuted: the implicit copy keeps saved_ptr, so y.addC('a').addC('b') on a copy y of x puts b into x, and is undefined if x is gone (C68_dangling)."
 },
 "C69": {
  "note": "Proved for all methods, addU below 2^32. Refuted: Format_ext::addU takes unsigned int and drops the upper 32 bits. C69_exact: the texts agree exactly for values below 2^32."
 },
 "C71": {
  "note": "Proved: the exact text. Refuted: the 'from' type is that of the pointer, always shared_ptr<MailBoxBase>."
 },
 "C72": {
  "note": "Proved: exact arithmetic, all positive values; binary64, 1 to 9 digits, 1e-290 to 1e290, error bound 2e-13 on top of half a unit. C72_more_digits_partial: ten and eleven digits, for smaller ranges. Refuted: for zero and negative values the loop never ends."
 },
 "C73": {
  "note": "Extraction of a double as libstdc++ does it in the C locale (hexadecimal numbers, inf and nan are not accepted by it)."
 },
 "C74": {
  "note": "The bounds 16 and 17 suffice for all finite doubles; C74_sharp shows that 15 fraction digits do not."
 },
 "C76": {
  "note": "Proved: exactly the integers of magnitude below 2^b are accepted and stored modulo 2^b; addU in decimal is read back. Refuted: an option without default takes -1 and stores 2^b-1. C76_refuted_always: with a leading space -1 is accepted by every unsigned option. C76_default_partial: an option with a default does refuse negative numbers (they are taken for switches)."
 },
 "C78": {
  "note": "Assumes that names, messages and tokens contain no null character (what() ends at it)."
 },
 "C79": {
  "note": "Proved: the token is refused as unknown name and nothing is changed. Refuted: the form the header shows is not implemented."
 },
 "C80": {
  "note": "Happens-before is defined for one mutex; that accesses() lists every access of the model is proved (C80_accesses_writes, C80_accesses_reads). C57 is the weaker form about simultaneously enabled accesses."
 },
 "C82": {
  "note": "Relies on the reading that every public method of MailBox holds the mutex for its whole body (built into the model)."
 },
 "C87": {
  "note": "C87_deadline_matters: a thread that does reach its deadline at the barrier ends the program with an exception. Parameters are natural numbers; the int product on lines 63 and 67 is assumed not to overflow."
 },
 "C88": {
  "note": "The arithmetic of the test itself is modelled in binary64; pow(10,-p) may return anything not below the exact power by more than one part in 2^52. The random numbers and the multiplication by powers of ten are parameters (any list of values)."
 },
 "C90": {
  "note": "C90_timeout_unnoticed: an execution in which a thread catches an exception and the exit code is 0; CTest looks at the output instead (C95). In executions with deadlines the barrier has a data race (C57), so C++ promises nothing for them; the model continues with an atomic read."
 },
 "C91": {
  "note": "A thread has entered when it has got the mutex and executed waiting++ (line 62); the deadline of wait_for is taken to be at least the timeout after that moment. C91_within is the form with times."
 },
 "C93": {
  "note": "Violated: the implicit copy constructor and assignment copy the pointer to the root, so that both objects have the same nodes (C93_same, C93_stays) and every reading that changes the tree of one changes that of the other (C93_refuted_always). C93_partial: objects that do not share their root are independent."
 },
 "C94": {
  "note": "Describes the memory leak; documents with a mistake are counted by C124_count."
 },
 "C95": {
  "note": "The output of BarrierTest is modelled chunk by chunk (one operator<<), chunks of different threads interleaved arbitrarily; CTest is modelled as a search for a fixed text and a test of the exit code. For MailBoxTest it is proved that no step of a thread is one that writes; the text main writes is modelled as one text. Times are not modelled: which outcome is likely is not stated."
 },
 "C96": {
  "note": "The reference count itself is that of std::shared_ptr and trusted."
 },
 "C97": {
  "note": "Statements of the program's own are indivisible and do not touch the barrier. C97_phases holds for all scripts, not only those of the form ForkJoin. Spurious wake-ups are counted in the bound. exit(0) at the end of the example is not modelled further."
 },
 "C102": {
  "note": "Violated: a thread may return from wait while others are still about to lock the mutex again (C102_refuted; the header does not say when a barrier may be destroyed). C102_safe_to_destroy says exactly when it is safe, C102_all_ended_partial: when all calls have ended."
 },
 "C98": {
  "note": "Violated: the separator is used only for zero in notation 'e' (Format.cxx:440); everywhere else the point is a literal or the stream's. C98_exact says for every value when the claim holds, C98_ignored_partial that the separator is ignored otherwise."
 },
 "C99": {
  "note": "Violated: width 0 is replaced by significant_digits + 4 (addF(1.0) inserts \"1.000000  \"). C99_fixed_exact: exactly when it holds in notation 'f'; C99_sci_partial: always in 's'; C99_eng_partial: in 'e' exactly for exponents of two or more digits; C99_nan_inf_refuted: never for NaN and infinities. C99_general_exact: exactly when it holds in 'g'. C99_eng_no_digits_partial: d = 0 in 'e'."
 },
 "C100": {
  "note": "Holds in notations 'f', 's' and 'g' and for NaN and infinities (widths below 2^31). Violated in 'e': the text is always longer than the width (C100_eng_partial: the sign, the point or the width of the exponent is not counted), and zero ignores the width (C100_zero_exact)."
 },
 "C101": {
  "note": "Violated: a value that is rounded up to exactly a power of ten gets one digit more (getIntPartWidth counts the digits of 10, 100, 1000 as those of 9, 99, 999), and with fewer digits than the integer part has, this has zeros instead. C101_exact, C101_all_exact: exactly when it holds with exact arithmetic (one to ten digits). C101_digits_*_partial: the number of digits in all cases (exact arithmetic; doubles with at most nine digits)."
 },
 "C103": {
  "note": "Violated for copies: the implicit copy constructor copies shared_ptrs, so a copy and its original have the same option objects and report the same options as present (C103_copies_share), whichever of them parsed (C103_refuted). What copies report as present is described exactly (C103_presence): what was ever given to any object that shares the registration. Everything else holds for copies too (C103_replies_partial); objects that are neither copied nor assigned are fully independent (C103_alone, C103_targets)."
 },
 "C104": {
  "note": "Violated by readFile: only YAML::BadFile is translated; files that are not YAML, and documents that fillRecurse cannot handle, end in exceptions of yaml-cpp, which are not derived from SoDa::Exception. C104_exact: exactly when."
 },
 "C105": {
  "note": "The first half holds (C105_separate). The second is violated: subscriptions are compared by the address of the mailbox, so one that is left over from a destroyed mailbox is accepted by a mailbox constructed at the same address (for example a std::optional that is emplaced again), and destroying it ends the subscription of somebody else. C105_exact: refused exactly if the addresses differ; C105_fresh_partial: programs that use no address twice."
 },
 "C106": {
  "note": "Violated: OptionsTest always returns 0 and CTest does not look for its FAIL, so OptionsTestSimple passes whatever the library does (and it compares no positional argument: std::list::merge has emptied the list of the expected ones); FormatHexTest has two equal keys in a std::map, so the second text is never checked; SplitTest does not notice missing tokens of split or additional ones of splitVec. The _exact theorems say for all answers when each test passes."
 },
 "C107": {
  "note": "Delivery, common order and progress hold with calls that run out of memory anywhere in the history (C107_delivery, C107_common_order, C107_not_blocked). That a failing call has no effect is violated twice: a put that fails on the way has already reached the subscribers with smaller ids (C107_put_exact, C107_refuted_put), and a subscribe that fails when it makes the queue destroys the subscription object while it holds the mutex, so that unsubscribe locks the mutex a second time: undefined, in practice a deadlock (C107_refuted_subscribe). C107_exact: exactly these two calls break it; C107_no_effect_partial: all other calls."
 },
 "C108": {
  "note": "Violated: after a first command line that ends in a lone -i (accepted without a message), the option still waits for a signed value when the second line is read, so \"--intarg\" is taken for its value; C108_lone_int says what happens then for every such line. C108_shows_partial: all other accepted lines. C108_refuses: the lines that are not accepted."
 },
 "C111": {
  "note": "Violated for the lines after one that ended within an option of a signed type (its value was refused, missing, or its test function threw): every token of all later lines is then a positional word (C111_lines_exact). C111_lines_partial: all other sequences of lines. C111_line, C111_thrown: one line, for all test functions. C111_pure: with test functions that only look at the value this is the model of the other properties."
 },
 "C112": {
  "note": "Violated in one part: clear, unsubscribe and the destruction of a subscription destroy messages with the mutex held (C112_refuted; C112_where says exactly when). C112_unlocked_partial: programs without these calls. Everything else holds for all programs: C112_alive, C112_destroyed, C112_once, C112_close; C112_mailbox: the mailbox itself behaves as in C40 to C47."
 },
 "C113": {
  "note": "Violated for large arguments of wait(unsigned long): C113_refuted, C113_at_once; C113_exact says for which arguments the exception may come too early (2^64 - 9223372036854 ms and more: at once) and for which the computation of the deadline is undefined (all others whose deadline is after the end of a 63-bit clock). C113_asked_partial: all arguments whose deadline is before the end of the clock. C113_not_early, C113_in_time and C113_expires hold for all durations."
 },
 "C114": {
  "note": "Trying again is safe (C114_retried, C114_reset_again). That a failing call changes nothing is violated: an insertion that fails on the way has filled the placeholders before (C114_refuted; C114_fails, C114_after and C114_exact say exactly when it fails, what is printed then, and when nothing is changed), and a failing reset has already dropped the segments (C114_reset_refuted; C114_reset_after: a beginning of the text without values is printed). C114_unchanged_partial: str, and insertions of at most 15 characters or with at most one placeholder."
 },
 "C115": {
  "note": "Trying again is safe (C115_retried). That a failing registration cannot be noticed is violated: the target variable has already been set (C115_refuted), and when there is no memory for the entry of the letter the option is known by its long name but not by its letter (C115_half, C115_half_refuted). C115_target_only: before that entry nothing but the target changes; C115_unchanged_partial: nothing at all if the target already has its initial value. C115_exact: for an option with a new name this is exactly when it cannot be noticed."
 },
 "C116": {
  "note": "C116_prefix and C116_between hold as stated. That parsing again gives what the call would have given is violated: positional arguments and vector elements come twice (C116_refuted), and after a failure between the switch and the value of an option of a signed type everything is taken for a positional argument (C116_positional_refuted). C116_again_exact says exactly when parsing again is right, for failures at every point of the loop: nothing positional and no vector element before the failure, and no value of a signed type expected. C116_again_any: the same for lines given as a string or as argv, in both styles. The hypothesis that converting a bad text twice leaves what converting it once leaves is proved for every modelled type (settles_types). C116_again_partial is the older special case."
 },
 "C117": {
  "note": "Violated: fractionate collects the digits after the point in an int. C117_exact: with exact arithmetic the call is undefined exactly if the digits after the point, read as a number, are 2^31 or more. C117_undefined: for doubles with p digits before the point and a fraction of at least 0.2148 (not within 0.0001 of the next integer) every d >= p + 10 is undefined, for example addF(1.5,'e',0,11) (C117_refuted). C117_ten_partial: up to ten digits never."
 },
 "C122": {
  "note": "Violated: a reading that failed may already have put scalars of sequences into the list of the root, and trying again puts them there once more (C122_refuted). C122_again_partial: everything below keys is what it would have been, and which items the list has twice. C122_again_exact: trying again is right exactly if nothing had been put into the list of the root."
 },
 "C125": {
  "note": "Violated: an alias may refer to an enclosing node (`&a {b: *a}`), and fillRecurse then calls itself for ever (C125_refuted). C125_exact: the reading ends exactly if no node is inside itself with no mistake before it; the calls are then nested at most one deeper than there are nodes. C125_normal: it ends without an exception exactly if all is fine. C125_tree: what is then read, from documents with circular aliases after a mistake too (C125_tree_partial: without circular aliases, as their unfolding)."
 },
 "C127": {
  "note": "Violated: a message that owns a subscription of its mailbox is destroyed by clear with the mutex held, and ~SubscriptionCl locks it again (C127_refuted); also subscribe out of memory (C127_refuted_memory) and two mailboxes whose messages call each other (C127_refuted_two). C127_partial, C127_progress, C127_mailbox: it holds if the destructors of messages call only mailboxes further up in some order. C127_protected needs no hypothesis."
 },
 "C128": {
  "note": "Violated: a line parsed by the test function of an option of a signed type is not read as a line, all its tokens are positional words (C128_refuted, C128_signed). C128_partial: it is if test functions of signed options parse none and the others at most one. C128_line with C128_every_line say what happens in every case; C128_include: options that name files; C128_endless: a file that includes itself; C128_plain: without use of the object this is the model of C111."
 },
 "C129": {
  "note": "Violated: C129_refuted (\"-1,234,567\", \"0x1,234\", field number \"%1,000\", \"1.234.567e+0\"). C129_classic_partial: same texts in locales without grouping and with a point. C129_addI_exact, C129_addU_exact, C129_real_exact (notations 'f', 's', 'g'): exactly when the text is the same; C129_written_partial, C129_fixed_partial, C129_real_partial: what is written. Notation 'e': C129_engineering_exact (same text exactly if none of the integer part, the written fraction and the exponent gets a separator), C129_engineering_partial."
 },
 "C130": {
  "note": "Violated: C130_refuted (\"1,234\" is 1 or 1234; in notation 'e' 1.234567 is written and read back as 1234567). C130_same_partial: texts without separators. C130_grouped_exact, C130_real_exact: which texts of digits and separators are taken by integer and floating point options. C130_addI_partial, C130_addU_partial, C130_real_partial (notations 'f', 's', 'g'): what is written in a locale is read in it; C130_zeros_exact: zeros as fill character; missing there: separators and other fill characters of addI/addU, base 8. C130_hex: hexadecimal texts are read as 0. C130_engineering_partial: notation 'e' if there is nothing to separate and the point is the usual one. C130_point_ends, C130_point_separates: numbers with a point '.' where the locale has another one, or separates digits by '.'. C130_crossed: written with separators, read in the \"C\" locale."
 },
 "C131": {
  "note": "Violated: C131_refuted (a thread that resets its MailBoxPtr before its Subscription; alone always undefined, with a second thread depending on the order). C131_safe_partial: the claim for threads that keep a MailBoxPtr for every Subscription; C131_exact: exactly those, for threads whose variables are gone at the end. C131_alive, C131_released: the mailbox exists exactly while pointed to. At most 2^31-1 subscriptions in all (C47: overflow of the counter)."
 },
 "C132": {
  "note": "Violated: C132_refuted (std::setw(8) before help, a scalar, an empty container). C132_help_partial, C132_dump_plain_partial: without a pending width. C132_help_width, C132_dump: any width. C132_exact: exactly when the claim holds (device without limit). C132_format: os << format is one field. C132_not_good: streams with errors. C132_parse: the messages of parse on std::cerr. C132_dump_throws: exactly when a tree that does not fit throws, for any exception mask; C132_dump_read: trees that have been read (as help)."
 },
 "C143": {
  "note": "Violated: C143_refuted (\"000-42\" is 0, \"0x00ff\" is 0, \"0755\" is 755, \"1,234,567\" is 1). C143_addI_exact, C143_addI_sep_exact (separators that are no digits, padding with blanks), C143_oct_exact (no separators), C143_dec_exact (separators that are no digits, signs or white space): exactly when the number is read back. C143_hex, C143_hex_option: always 0."
 },
 "C144": {
  "note": "Violated: C144_refuted (\"0x1F\" is read as 0). C144_int_exact: exactly the integers in decimal, and 0. C144_based: octal and hexadecimal numbers are 0 for every type. C144_float: double and float. C144_float_as_int, C144_truncates, C144_point_first: numbers with point or exponent read as integers. C144_words: words. C144_document: from the document to the value."
 },
 "C145": {
  "note": "Violated: C145_refuted (German locale: 144.200 is 144200, 3.14 is refused). C145_same_partial, C145_safe, C145_decimal: where the locale makes no difference. C145_point_ends: locales with another point that do not separate digits by '.'. C145_point_separates: locales that do, exactly when a number with a point is accepted and as what. C145_int_same, C145_int_separates: integer types. Not covered: values that are not YAML numbers and contain the separator (see C130)."
 },
 "C146": {
  "note": "Violated: C146_refuted (default port 8080 lost when the value is the word auto). C146_signed, C146_unsigned, C146_double, C146_float, C146_bool: exactly what is left in the variable. C146_text_partial: std::string and char keep it. C146_default_exact, C146_default_unsigned, C146_default_bool, C146_default_double: exactly when a default survives. C146_words: the words of YAML. C146_path: get<int> with a path never succeeds. C146_path_types: nor do other numbers and bool; std::string gets \"root\"."
 },
 "C147": {
  "note": "Violated: C147_refuted (5 is read as 53). C147_accepts: every text that is not blank is accepted. C147_first, C147_sign, C147_option: what is stored. C147_exact, C147_decimal_exact: the integers that are read as themselves, 53, 48 with a zero in front and 43 with a plus sign. C147_usual_form: without superfluous zeros only 53. Not covered: characters from 128 up."
 }
}
