{"claims":[
{"property": "C01", "status": "proved", "theorems": ["BS.C01_chopping_partitions"], "note": ""},
{"property": "C02", "status": "proved", "theorems": ["BS.C02_chop_exact"], "note": ""},
{"property": "C03", "status": "proved", "theorems": ["BS.C03_chop2_greedy"], "note": ""},
{"property": "C04", "status": "partial", "theorems": ["BS.C04_readouts_agree_partial", "BS.C04_exact", "BS.C04_violated_empty", "BS.C04_violated_null"], "note": "Holds for blobs with data left; AsByteVector of an empty blob and DataDup of a null blob are undefined behaviour. C04_exact: which blobs, exactly: those built from no bytes, and those on a null pointer."},
{"property": "C05", "status": "partial", "theorems": ["BS.C05_isEmpty_partial", "BS.C05_violated"], "note": "Violated: isEmpty() only tests the data pointer."},
{"property": "C06", "status": "proved", "theorems": ["BS.C06_arith_bijection", "BS.C06_unique"], "note": ""},
{"property": "C07", "status": "partial", "theorems": ["BS.C07_integer_text_partial", "BS.C07_violated"], "note": "Holds for every integer type except signed char values -128..-100, whose text ends in a NUL byte."},
{"property": "C08", "status": "proved", "theorems": ["BS.C08_double_exact", "BS.C08_float_exact"], "note": "float and double; the text of a long double is undefined (C52)."},
{"property": "C09", "status": "proved", "theorems": ["BS.C09_proportion_in_range"], "note": ""},
{"property": "C10", "status": "proved", "theorems": ["BS.C10_proportion_monotone"], "note": ""},
{"property": "C11", "status": "proved", "theorems": ["BS.C11_small_ranges_exact"], "note": ""},
{"property": "C12", "status": "proved", "theorems": ["BS.C12_dict_picks_word", "BS.C12_empty_dictionary_undefined"], "note": "The empty dictionary, excluded by the property, is undefined behaviour."},
{"property": "C13", "status": "proved", "theorems": ["BS.C13_every_word_reachable"], "note": "Proved for up to 2^47 words."},
{"property": "C14", "status": "partial", "theorems": ["BS.C14_width_partial", "BS.C14_violated"], "note": "Violated for 65537..2^32 words: UINT_MAX+1 is 0, so 8 bytes are taken instead of 4."},
{"property": "C15", "status": "proved", "theorems": ["BS.C15_latin1_text", "BS.C15_ascii_text", "BS.C15_empty_throws"], "note": ""},
{"property": "C16", "status": "proved", "theorems": ["BS.C16_fixed_pieces"], "note": ""},
{"property": "C17", "status": "partial", "theorems": ["BS.C17_terminates_partial", "BS.C17_exact", "BS.C17_violated"], "note": "Holds unless the stamp's minSize() and maxSize() are both 0, in which case the galley loops for ever. C17_exact: it loops for these sizes and for no others."},
{"property": "C18", "status": "partial", "theorems": ["BS.C18_variated_pieces_partial", "BS.C18_violated"], "note": "Missing: min = INT_MAX-1, the one pair for which min + 2 overflows int; proved undefined there."},
{"property": "C19", "status": "partial", "theorems": ["BS.C19_unbounded_pieces_partial", "BS.C19_every_run_partial", "BS.C19_violated_count", "BS.C19_violated_overflow", "BS.C19_violated_rounding", "BS.C19_violated_three"], "note": "Proved for blobs of up to 3000000 bytes holding at most 32768 minimal parts; violated beyond in three ways, the shortest witness having 6276887 bytes. Whenever the galley returns, on blobs below 2 GiB, the number, the minimum and the place of the pieces are proved."},
{"property": "C20", "status": "partial", "theorems": ["BS.C20_minSize_enough_partial", "BS.C20_exact", "BS.C20_violated"], "note": "minSize() is enough in the ranges of C16, C18 and C19; violated: below minSize() but above the stamp's own minimum an empty vector is returned instead of OutOfData. C20_exact: below minSize() it throws, or returns no piece, and exactly when."},
{"property": "C21", "status": "partial", "theorems": ["BS.C21_pieces_partial", "BS.C21_outcome_partial", "BS.C21_set_pieces_partial", "BS.C21_violated_zero", "BS.C21_violated_all_zero", "BS.C21_violated_remainder"], "note": "One piece per stamp, in order, consecutive after the oracles: proved for every run that returns, with no limit on oracles, stamps or blob size. That it returns: for stamps whose size sums are ints, blobs below 2^31-1 bytes and stamps*(Size+1) <= 2^49, it returns or a stamp of minimum 0 that read the oracle 0 gets the size -1 and it throws; unless all variated stamps read 0, when it never returns. Both exceptions are violations with witnesses."},
{"property": "C22", "status": "partial", "theorems": ["BS.C22_minimum_partial", "BS.C22_two_unbounded", "BS.C22_violated"], "note": "For every run that returns, with stamps whose size sums are ints, blobs below 2^31-1 bytes and stamps*(Size+1) <= 2^49. A stamp that reads the oracle 0 may get one byte less than its minimum (violation), never less than that. With exactly two unbounded stamps among fixed ones the minimum is always met."},
{"property": "C23", "status": "proved", "theorems": ["BS.C23_maximum"], "note": "For every run that returns: no limit on oracles, number of stamps or blob size. Stamps report sensible sizes: 0 <= min <= INT_MAX and max = -1 or min <= max <= INT_MAX."},
{"property": "C24", "status": "partial", "theorems": ["BS.C24_consumed_partial", "BS.C24_violated"], "note": "For every run that returns, with stamps whose size sums are ints, blobs below 2^31-1 bytes and stamps*(Size+1) <= 2^49. Violated for 2^31 bytes: an unbounded stamp gets nothing."},
{"property": "C25", "status": "partial", "theorems": ["BS.C25_short_throws_partial", "BS.C25_exact", "BS.C25_violated"], "note": "C25_exact: for stamps of sensible sizes that need fewer than 2^32 bytes together, it holds if the minima and the widths add up to ints (minSize() itself need not be one); otherwise the galley overflows an int on every blob. Missing: sets of 10^9 stamps and more that need 2^32 bytes."},
{"property": "C26", "status": "partial", "theorems": ["BS.C26_enumerator_partial", "BS.C26_exact", "BS.C26_text_exact", "BS.C26_text_partial", "BS.C26_violated"], "note": "Proved when the first element string is not empty; violated: a leading empty element loses its separator. C26_exact, C26_text_exact: the text of every run that returns, and exactly when it is the stated one."},
{"property": "C27", "status": "proved", "theorems": ["BS.C27_unary", "BS.C27_binary", "BS.C27_balanced"], "note": ""},
{"property": "C28", "status": "partial", "theorems": ["BS.C28_min", "BS.C28_max_partial", "BS.C28_max_after", "BS.C28_members", "BS.C28_violated_max", "BS.C28_violated_empty"], "note": "The minimum is proved for every non-empty history. The maximum is as stated for histories without a bounded stamp appended after an unbounded one (C28_max_partial); for the others it is the greatest maximum of the stamps appended after the last unbounded one (C28_max_after), which is not what the property states (C28_violated_max). C28_members: minSize() and maxSize() of a lottery in a graph are those of its stored members."},
{"property": "C29", "status": "partial", "theorems": ["BS.C29_lottery_picks_fitting", "BS.C29_exact", "BS.C29_violated"], "note": "Proved for blobs of any size and lists of up to 2^53 stamps with int sizes; violated: the recursive lottery adds minSize() and maxSize() of a stamp that fits in an int, which overflows for stamps of 2^30 bytes. C29_exact says exactly when."},
{"property": "C30", "status": "proved", "theorems": ["BS.C30_every_candidate_wins"], "note": ""},
{"property": "C31", "status": "partial", "theorems": ["BS.C31_picks_fitting", "BS.C31_short_throws", "BS.C31_picker_partial", "BS.C31_violated", "BS.C31_violated_huge"], "note": "Choice of a fitting stamp proved for every pool of up to 2^53 stamps with sizes in range. In terms of the picker's own minSize() proved for picker grammars with a derivation cheaper than INT_MAX/2. A picker without such a derivation aborts on a blob of a gibibyte: one with an empty pool (C31_violated), and one over a stamp of 2000000000 bytes (C31_violated_huge)."},
{"property": "C32", "status": "proved", "theorems": ["BS.C32_no_trace"], "note": "isRecursive() itself does leave a trace that changes maxSize(): isRecursive_leaves_trace."},
{"property": "C33", "status": "partial", "theorems": ["BS.C33_ends_partial", "BS.C33_single_child", "BS.C33_violated", "BS.sum_min_negative"], "note": "Every size query ends; it returns a value for single-child stamps and pickers. For binary operators over recursive enumerators minSize() overflows int: C33_violated."},
{"property": "C34", "status": "partial", "theorems": ["BS.C34_least_derivation", "BS.C34_single_child", "BS.C34_converse", "BS.C34_otherwise", "BS.C34_violated"], "note": "Proved whenever some derivation costs less than INT_MAX/2; violated beyond: a picker over a stamp of 2000000000 bytes reports 1073741823. C34_otherwise: if none is cheaper, minSize() is at least INT_MAX/2."},
{"property": "C35", "status": "partial", "theorems": ["BS.C35_recognised_partial", "BS.C35_exact", "BS.C35_only_recursive", "BS.C35_violated"], "note": "Recursion through pickers only is recognised. Recursion through an enumerator is not: StampJSON reaches itself and isRecursive() returns false. C35_exact: when isRecursive() is true, exactly."},
{"property": "C36", "status": "partial", "theorems": ["BS.C36_ends_partial", "BS.C36_violated"], "note": "Extraction ends for every finite graph whose cycles pass through pickers or lotteries, provided no vector sits over a stamp of fixed size 0 and user stamps end; it may end in abort or undefined behaviour. Violated as stated by a vector over a size-0 stamp, which loops for ever."},
{"property": "C37", "status": "proved", "theorems": ["BS.C37_rest_is_suffix", "BS.C37_stays_inside", "BS.C37_same_end"], "note": "Suffix for every graph and outcome. In-bounds reads for graphs with non-empty dictionaries, lists of at most 2^53 entries and user stamps that stay inside their blob."},
{"property": "C38", "status": "proved", "theorems": ["BS.C38_bytes_decide", "BS.C38_divergence"], "note": "Every graph, every outcome, every pair of reachable blobs."},
{"property": "C39", "status": "partial", "theorems": ["BS.C39_enough_partial", "BS.C39_small_partial", "BS.C39_violated"], "note": "Proved (returns a string, no throw, nothing undefined) for every such grammar and every blob up to a length at which no list over unbounded stamps can exceed 32768 elements; for any grammar at least 65538 bytes. Violated above: a text join over a Latin-1 stamp throws OutOfData on 16777227 bytes (float rounding), proved with witness."},
{"property": "C40", "status": "partial", "theorems": ["BS.C40_every_run_partial", "BS.C40_expressions", "BS.C40_consumption_partial", "BS.C40_bounded_partial", "BS.C40_operators_partial", "BS.C40_violated", "BS.C40_violated_list", "BS.C40_violated_sum"], "note": "Proved for every run that returns, on blobs up to 2^31-2 bytes, for recursive and unbounded grammars with binary operators, sets, structures, lists, lotteries and pickers (the expressions of examples/exampleZZ.cpp among them), and for stamps of bounded size of any make-up. Violated by StampJSONString, which asks for 8 bytes and takes 1, by lists of unbounded elements whose count wraps to 0, and by recursive structures that add up the sizes of their members."},
{"property": "C41", "status": "partial", "theorems": ["BS.C41_json_partial", "BS.C41_exact_partial", "BS.C41_violated", "BS.C41_violated_every_size"], "note": "Proved for all blobs up to 393231 bytes, contents arbitrary. Violated at every larger size below 2 GiB: int overflow in the array's size oracles, proved with witness for each size."},
{"property": "C42", "status": "partial", "theorems": ["BS.C42_json_partial", "BS.C42_json_finite_partial", "BS.C42_violated"], "note": "Violated: an infinite double prints as inf, which is not JSON (10-byte witness). Every returned string is a JSON text once inf, -inf, nan and -nan count as numbers, and a JSON text outright when no eight consecutive bytes of the blob are a non-finite double."},
{"property": "C43", "status": "proved", "theorems": ["BS.C43_load", "BS.C43_load_unload", "BS.C43_unbounded", "BS.C43_unload_once", "BS.C43_unload_unloaded", "BS.C43_json_string_differs"], "note": "Proved for arithmetic, dictionary and text stamps as stated; Load itself for every stamp with known sizes. StampJSONString, which the property leaves out, differs (Load takes 8 bytes, ExtractStr 1), and UnloadStr without Load is a null dereference."},
{"property": "C44", "status": "partial", "theorems": ["BS.C44_load_all_partial", "BS.C44_enough_partial", "BS.C44_short_partial", "BS.C44_violated", "BS.C44_violated_lost"], "note": "Proved when every piece reaches its stamp's minimum, in particular for enough data with nonzero oracles in the range of C21; and for blobs shorter than the set's minimum. Violated as stated: a piece one byte short makes LoadAll throw half way, and a piece one byte too long loses its end."},
{"property": "C45", "status": "proved", "theorems": ["BS.C45_dump", "BS.C45_overrun", "BS.C45_endless", "BS.C45_exact"], "note": "Proved for every blob below 2^31 bytes. Outside that range Dump either overruns its line buffer or never ends (C45_exact: it works on no larger blob)."},
{"property": "C46", "status": "partial", "theorems": ["BS.C46_exact", "BS.C46_freed_once_partial", "BS.C46_gone", "BS.C46_extractPValue", "BS.C46_violated", "BS.C46_violated_leak"], "note": "C46_exact: a legal history that ends with all objects gone frees every buffer exactly once if no copy is made of an object that holds a buffer, and if one is made a buffer is freed that must not be; so the histories for which the statement holds are known exactly (elided copies assumed elided, as gcc and clang do; malloc assumed to succeed). Violated with copies (both objects free the buffer) and by ExtractPValue running out of data (the buffer leaks); both proved."},
{"property": "C47", "status": "partial", "theorems": ["BS.C47_size_partial", "BS.C47_exact", "BS.C47_violated"], "note": "size() equals the size of the buffer after every history; the room for length() elements is proved when offset+length*sizeof fits in size_t and refuted when it does not. C47_exact: there is room if and only if the size did not wrap or there are no elements."},
{"property": "C48", "status": "partial", "theorems": ["BS.C48_vector_bin_partial", "BS.C48_set_bin_partial", "BS.C48_violated"], "note": "For fewer than 2^31 pieces; beyond that the int loop counter overflows (C48_violated)."},
{"property": "C49", "status": "partial", "theorems": ["BS.C49_arith_vector_partial", "BS.C49_violated"], "note": "For fewer than 2^31 values; beyond that the int loop counter overflows (C49_violated)."},
{"property": "C50", "status": "proved", "theorems": ["BS.C50_arith_set"], "note": ""},
{"property": "C51", "status": "proved", "theorems": ["BS.C51_double_shape", "BS.C51_float_shape", "BS.C51_nonfinite"], "note": "float and double; the text of a long double is undefined (C52)."},
{"property": "C52", "status": "partial", "theorems": ["BS.C52_value_partial", "BS.C52_violated"], "note": "The value is proved (x86-64 layout). The text is not: %.999g is given a long double, which is undefined on every blob of 16 bytes or more (C52_violated)."},
{"property": "C53", "status": "proved", "theorems": ["BS.C53_picker_exact", "BS.C53_json_kind", "BS.C53_json_text"], "note": ""},
{"property": "C54", "status": "proved", "theorems": ["BS.C54_json_length"], "note": ""},
{"property": "C55", "status": "proved", "theorems": ["BS.C55_local"], "note": ""},
{"property": "C56", "status": "partial", "theorems": ["BS.C56_copy_partial", "BS.C56_known", "BS.C56_violated"], "note": "Proved while the original lives; a copy of a picker known to be recursive knows it, too; refuted after the original is destroyed."},
{"property": "C57", "status": "partial", "theorems": ["BS.C57_owned_partial", "BS.C57_pickers_partial", "BS.C57_violated"], "note": "Proved for stamps handed to constructors (shared pointers), and for pool pickers built only from such stamps; refuted for add_weak."},
{"property": "C58", "status": "proved", "theorems": ["BS.C58_words", "BS.C58_choice", "BS.C58_order"], "note": ""},
{"property": "C59", "status": "partial", "theorems": ["BS.C59_short_refused_partial", "BS.C59_json", "BS.C59_violated"], "note": "proved for all compositions in Strict; false for enumerators over stamps of varying size and for StampJSONString and stamps using it (C59_violated)"},
{"property": "C60", "status": "partial", "theorems": ["BS.C60_throw_keeps_data_partial", "BS.C60_unary", "BS.C60_list", "BS.C60_list_any", "BS.C60_set", "BS.C60_set_any", "BS.C60_set_rest", "BS.C60_lottery", "BS.C60_picker", "BS.C60_violated", "BS.C60_violated_seq"], "note": "Holds for leaves, unary operators, lists over stamps of fixed size and sets of such stamps. False for stamps that read in several steps. For every kind of stamp it is settled exactly when a throw leaves the blob as it was: lists and sets over stamps of any size (C60_list_any, C60_set_any, C60_set_rest), structures (C60_violated_seq), lotteries and pool pickers. C60_set_rest is for blobs below 2^31-1 bytes and stamps*(Size+1) <= 2^49."},
{"property": "C61", "status": "proved", "theorems": ["BS.C61_language", "BS.C61_member", "BS.C61_empty"], "note": "C61_member spells out the consequence for members of objects; C61_empty shows that the bound on non-empty arrays is exact."},
{"property": "C62", "status": "partial", "theorems": ["BS.C62_every_value_partial", "BS.C62_large_partial", "BS.C62_integers", "BS.C62_violated", "BS.C62_violated_long"], "note": "Holds for non-empty arrays and objects whose members are arrays or objects, up to 786434 bytes of room when elements beside others stay below 32 KiB. An object with a scalar member is never made (C62_violated), nor an array of more than 65535 integers (C62_violated_long); arrays of integers are settled exactly (C62_integers). Open: large elements beside others, and empty arrays and objects inside."},
{"property": "C63", "status": "proved", "theorems": ["BS.C63_leaves", "BS.C63_list", "BS.C63_set", "BS.C63_seq", "BS.C63_unary", "BS.C63_picker"], "note": "For sizes whose sums are ints, as the property says. The sizes of dictionaries and lotteries are C14 and C28, the minimum of recursive pickers is C34."},
{"property": "C64", "status": "proved", "theorems": ["BS.C64_order", "BS.C64_clean"], "note": "Same text, flags and bytes under any order; two orders that both end in a text or in OutOfData agree. Runs that are undefined in one order may throw in another."},
{"property": "C65", "status": "partial", "theorems": ["BS.C65_chars", "BS.C65_noNul_partial", "BS.C65_json", "BS.C65_violated"], "note": "The general form holds for all stamps; the NUL-free form is violated by char stamps."},
{"property": "C66", "status": "partial", "theorems": ["BS.C66_line_partial", "BS.C66_violated_short", "BS.C66_violated_empty", "BS.C66_violated_large", "BS.C66_usage", "BS.C66_resized"], "note": "Holds for files of 10 to 393231 bytes; violated by files of 0 to 9 bytes and by some file of every greater size below 2 GiB."},
{"property": "C67", "status": "proved", "theorems": ["BS.C67_list", "BS.C67_set", "BS.C67_seq", "BS.C67_unary"], "note": "equivalences in both directions, for texts and for OutOfData"},
{"property": "C68", "status": "proved", "theorems": ["BS.C68_value", "BS.C68_vector", "BS.C68_text", "BS.C68_sizes", "BS.C68_list", "BS.C68_polyline", "BS.C68_injective"], "note": "values: all arithmetic members; texts: integer members other than char; sizes up to INT_MAX and fewer than 2^31 structures"},
{"property": "C69", "status": "partial", "theorems": ["BS.C69_few", "BS.C69_division_partial", "BS.C69_violated_large"], "note": "At most one unbounded stamp among fixed ones: proved for pieces of any length (C69_few, blobs below 2 GiB). Two or more unbounded stamps: proved when each piece has at most 65535 bytes more than its minimum; violated for longer blobs, since a weight has two bytes."},
{"property": "C70", "status": "proved", "theorems": ["BS.C70_sizes", "BS.C70_total", "BS.C70_language", "BS.C70_unambiguous"], "note": ""},
{"property": "C71", "status": "partial", "theorems": ["BS.C71_every_partial", "BS.C71_violated_lopsided", "BS.C71_operators"], "note": "Proved for expressions of at most 9363 numbers and words; violated for large lopsided ones (right operand with 122000 times as many leaves as the left one), on blobs of up to 2147483646 bytes."},
{"property": "C72", "status": "proved", "theorems": ["BS.C72_words", "BS.C72_lottery", "BS.C72_picker"], "note": "Counted over all values of the bytes that decide, any bytes following."},
{"property": "C73", "status": "proved", "theorems": ["BS.C73_linear", "BS.C73_json", "BS.C73_deep"], "note": "Depth counts calls of ExtractStr, minSize() and maxSize() inside one another; the budget also bounds the rounds of a galley's loop. Frame sizes and the stack limit itself are outside the model."},
{"property": "C74", "status": "proved", "theorems": ["BS.C74_composed", "BS.C74_rule"], "note": "Both for every grammar. Which texts a single stamp has is said by C06-C15 and C65; whether a stamp returns a text at all by C39 and C67."},
{"property": "C75", "status": "proved", "theorems": ["BS.C75_fit", "BS.C75_two", "BS.C75_zero_seed", "BS.C75_no_seeds", "BS.C75_fit_needed"], "note": "In the stated range. C75_two is the call TestRNode1 makes; C75_zero_seed and C75_no_seeds show the range is needed."},
{"property": "C76", "status": "partial", "theorems": ["BS.C76_pick", "BS.C76_every", "BS.C76_returned_partial", "BS.C76_returned_wrong", "BS.C76_returned_needed", "BS.C76_no_variants", "BS.C76_weighted", "BS.C76_weight_zero"], "note": "Marking and weights proved in the stated range. That the marked object is returned is proved if the last object has variants and refuted otherwise (C76_returned_wrong)."},
{"property": "C77", "status": "proved", "theorems": ["BS.C77_total", "BS.C77_every", "BS.C77_violated_lopsided"], "note": "C77_violated_lopsided shows that the bound on the size of the expressions cannot be dropped: large lopsided ones are never written. TestRNode2 and TestRNode3 are commented out of the galley and not modelled."},
{"property": "C78", "status": "proved", "theorems": ["BS.C78_chars", "BS.C78_object", "BS.C78_exacting", "BS.C78_list", "BS.C78_two", "BS.C78_several"], "note": "C78_object and C78_exacting make the general theorems about user-written stamps apply to these."},
{"property": "C79", "status": "partial", "theorems": ["BS.C79_division_partial", "BS.C79_single", "BS.C79_violated_large"], "note": "Proved for pieces of at most 32767 bytes above the minimum (the last at least one above) and 1,500,000 bytes in all; a single piece is exact. Violated for longer blobs, since a weight has two bytes."},
{"property": "C80", "status": "proved", "theorems": ["BS.C80_depth", "BS.C80_depth_large", "BS.C80_reached"], "note": "up to 786423 bytes the bound is (size-10)/6 and is reached for every size; up to 2^31 bytes the bound proved is (size+2)/6"},
{"property": "C81", "status": "partial", "theorems": ["BS.C81_used_up_partial", "BS.C81_list_partial", "BS.C81_json_partial", "BS.C81_violated_list", "BS.C81_violated_lottery", "BS.C81_violated_json"], "note": "proved for text stamps, sets with an unbounded member, what ends with such and choices among such; lists over unbounded stamps and StampJSON from 16 bytes on leave at most one byte. Violated by lists of fixed-size stamps, lotteries with bounded members and StampJSON below 16 bytes"},
{"property": "C82", "status": "partial", "theorems": ["BS.C82_list_partial", "BS.C82_list_piece_partial", "BS.C82_set_partial", "BS.C82_violated_zero", "BS.C82_violated_count"], "note": "lists: for blobs of at most 3,000,000 bytes and stamps for which at most 32768 parts fit; sets: whenever one returns, for at most 2^20 stamps, stamps*(Size+1) <= 2^49 and sizes that add up to ints. False without these: violated when all variated stamps read the oracle 0 and when the parts are counted in 16 bits"},
{"property": "C83", "status": "partial", "theorems": ["BS.C83_sizes", "BS.C83_exact_partial", "BS.C83_list", "BS.C83_lottery", "BS.C83_violated_string", "BS.C83_violated_lottery"], "note": "Proved for all stamps of fixed size by their make-up and operators over them, on every blob. The statement is false for StampJSONString and for lotteries that forget an unbounded member, which declare a fixed size and do not keep to it; both proved."},
{"property": "C84", "status": "partial", "theorems": ["BS.C84_enough_partial", "BS.C84_oracles_partial", "BS.C84_violated_zero", "BS.C84_violated_three"], "note": "Grammars with sets of fixed-size stamps and at most two unbounded ones: proved for blobs up to the limit of C39. Any set: proved unless a stamp reads the oracle 0. Violated by variated stamps that all read 0, and by three unbounded stamps of which one reads 0."},
{"property": "C85", "status": "partial", "theorems": ["BS.C85_asking_partial", "BS.C85_same", "BS.C85_same_answer", "BS.C85_violated", "BS.C85_violated_undefined"], "note": "Proved for all grammars unless a user stamp that calls itself recursive reports a greatest size; then asking changes sizes and texts (violated, with witness). A maxSize() that is undefined at the outset may be defined later (second violation); the answers of isRecursive() never change."},
{"property": "C86", "status": "partial", "theorems": ["BS.C86_same_sizes", "BS.C86_calls_partial", "BS.C86_bounded", "BS.C86_list_max", "BS.C86_lists", "BS.C86_pickers", "BS.C86_violated", "BS.C86_json"], "note": "The statement is false (C86_violated: more than any exponential in the number of stamps). Proved: an upper bound in the depth of nested calls and the number of stamps a stamp holds, exact costs of nested lists, at least (k-1)! calls for k pickers holding each other, 18 and 5 calls for StampJSON; the sizes agree with the model used for the other properties."},
{"property": "C87", "status": "proved", "theorems": ["BS.C87_same", "BS.C87_weights", "BS.C87_linear", "BS.C87_json", "BS.C87_needs_guard"], "note": ""},
{"property": "C88", "status": "proved", "theorems": ["BS.C88_calls", "BS.C88_weights", "BS.C88_linear", "BS.C88_expr", "BS.jsonGraph_terse", "BS.exprGraph_terse"], "note": ""},
{"property": "C89", "status": "partial", "theorems": ["BS.C89_asking_partial", "BS.C89_same_partial", "BS.C89_grammar", "BS.C89_json", "BS.C89_violated"], "note": "holds for every outcome but undefined behaviour in any graph, and for every outcome where sizes are defined (all picker grammars, StampJSON). Missing: undefined sizes, where it is false (C89_violated)"},
{"property": "C90", "status": "proved", "theorems": ["BS.C90_total", "BS.C90_weights", "BS.C90_json"], "note": ""},
{"property": "C91", "status": "proved", "theorems": ["BS.C91_swap", "BS.C91_any", "BS.C91_json", "BS.expr_open", "BS.record_open", "BS.C91_violated_user"], "note": "For all graphs in which client stamps depend only on the bytes they take (LocalUsers) and composite stamps write the texts of their parts in order (WriteForms; shown for all composite stamps of the library). C91_any: any bytes may be put in the places of numbers, words and texts. C91_json for StampJSON; expr_open and record_open show that the expressions of exampleZZ and lists of structures are of this kind. C91_violated_user: false for a client stamp that looks at bytes it does not take."},
{"property": "C92", "status": "proved", "theorems": ["BS.C92_same", "BS.C92_sizes", "BS.C92_grounded", "BS.C92_grammar_sizes", "BS.C92_grammar", "BS.C92_copy", "BS.C92_unroll", "BS.C92_json", "BS.C92_expr", "BS.C92_alike", "BS.C92_violated"], "note": "C92_same: any two families that correspond and have the same sizes. Sizes are the same where recursion passes through lotteries only (C92_sizes, every kind of stamp), and in picker grammars without summed maxima in which every stamp has some derivation below INT_MAX/2 (C92_grammar_sizes). C92_alike: if only stamps other than pickers are merged, the same holds for stamps of every kind, in every state of the pickers, without any condition on the grammar, and for sizes and isRecursive too; so a second stamp built like the first behaves like it. C92_json: any finite family of copies of StampJSON; C92_expr: any family of copies of the expressions of exampleZZ. C92_violated: false for a picker that recurses through a stamp which adds up the maxima of its parts, as the README has it."},
{"property": "C93", "status": "proved", "theorems": ["BS.C93_texts", "BS.C93_grammar", "BS.C93_json", "BS.C93_expr", "BS.C93_lottery", "BS.C93_violated"], "note": "C93_texts: any two families whose alternatives correspond as sets and whose sizes agree; client stamps must return and leave alone what they do not take (LocalUsers). C93_grammar and C93_lottery supply the agreement of sizes. C93_violated: it fails where Append of a bounded stamp follows one of an unbounded stamp, since the stored maximum then depends on the order."},
{"property": "C94", "status": "proved", "theorems": ["BS.C94_texts", "BS.C94_expr", "BS.C94_json", "BS.C94_violated"], "note": "C94_texts: the sizes of all stamps stay the same and every further alternative is covered by an old one (it fits no blob the old one does not fit, and is no better kept by the soft filter). C94_expr and C94_json are instances. C94_violated: without this it fails, since an alternative that fits better displaces the others."},
{"property": "C95", "status": "proved", "theorems": ["BS.C95_ends", "BS.C95_returns", "BS.C95_throws", "BS.C95_prefix", "BS.C95_galleys", "BS.C95_experiment", "BS.C95_violated"], "note": "For every outcome. C95_violated shows the limits the statement names: the number of bytes left matters, and clients' stamps that look ahead are excluded."},
{"property": "C96", "status": "proved", "theorems": ["BS.C96_count", "BS.C96_any", "BS.C96_bounded", "BS.C96_reached", "BS.C96_violated_user"], "note": "The bound for stamps of bounded size is for data below 2^31-1 bytes. C96_violated_user shows why clients' stamps that look ahead are excluded."},
{"property": "C97", "status": "proved", "theorems": ["BS.C97_room", "BS.C97_trees"], "note": "The converse of C74, for every family of stamps; the limits in the statement come from the float arithmetic of the galley and are needed (C71_violated_lopsided, C79_violated_large, C62_violated)."},
{"property": "C98", "status": "proved", "theorems": ["BS.C98_threads", "BS.C98_ends", "BS.C98_extract", "BS.C98_returns", "BS.C98_violated_every", "BS.C98_violated_size", "BS.C98_violated_text", "BS.C98_violated_lasting", "BS.C98_violated_overflow", "BS.C98_violated_abort"], "note": "Accesses to the members of stamps happen in one order, in every possible one. The six last theorems show what happens with a shared picker, the first of them for every picker: the condition cannot be dropped. With a lock around each call the calls come one after the other, and C85 applies. That the program of single accesses is the model with all its questions (C89) when it runs alone is proved on the way (sizeP_alone, isRecP_alone, extractP_alone)."},
{"property": "C99", "status": "proved", "theorems": ["BS.C99_load", "BS.C99_unload", "BS.C99_extract", "BS.C99_elsewhere", "BS.C99_load_change_unload", "BS.C99_freed", "BS.C99_after_load", "BS.C99_after_load_all", "BS.C99_after_unload", "BS.C99_after_extract", "BS.C99_program", "BS.C99_apart", "BS.C99_one_byte", "BS.C99_value"], "note": "Buffers below 2^63 bytes. C99_program is about any sequence of Load, LoadAll, UnloadStr, ExtractStr, new blobs, writes and frees, however the calls end. C99_apart and C99_one_byte: stamps that were not loaded before. In the model every use of a freed buffer is undefined."}
]}
