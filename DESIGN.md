# Formal model of libblobstamper

Source under study: `/repo` (postgrespro/libblobstamper), read as text only.
Model and proofs: Lean 4.33.0 with Mathlib, in `lean/Verif/`. State: 99 properties: 51 proved in full, 48 partial.

## 1. Approach

* The model transcribes the C++ function by function; each definition cites file and lines.
* Every call has one of five outcomes: `ok v`, `outOfData` (the C++ exception; objects keep
  whatever was done to them), `ub r` (undefined behaviour, with a reason), `abort`
  (`abort()`/`exit(1)`), `fuel` (the given step budget was exhausted; a theorem saying
  "`fuel` for every budget" is a proof of divergence, and properties quantify the budget away:
  "from some budget on, the outcome is …").
* `size_t` is a natural number with explicit reduction mod 2^64. `int` is an `Int` with overflow of
  signed arithmetic as `ub` and wrap-around on conversion from `size_t`.
* `float` and `double` arithmetic is IEEE-754 binary32/binary64 with round-to-nearest-even, over
  rationals (`Float.lean`), with overflow to infinity, subnormals and NaN.
* `Blob` is modelled twice: concretely (buffer, `begin`, `end` with unsigned wrap; reads outside the
  buffer and invalid pointer arithmetic are `ub`) and abstractly (the list of remaining bytes). All
  stamps are written once, generically over both; a simulation theorem carries results to the
  concrete blob. Properties are stated about the concrete one.
* Stamps form a graph (`Id → Option Node`), because recursive grammars (JSON, lotteries) are cyclic.
  The mutable recursion flags of pickers are part of the state.
* Properties are stated against small separate specifications (`Spec/*.lean`), in `Props/*.lean`;
  helper lemmas live in `Lemmas/*.lean`. Beside each property theorem an `example` runs a concrete case.
* A property the code violates is kept at full strength in `properties.jsonl`. The model then has a
  `…_partial` theorem for the part that holds and a `…_violated…` theorem with a witness (section 4).

### Files

| file | contents |
|------|----------|
| `Core.lean` | outcomes, state monad, machine integers |
| `Float.lean` | binary32 and binary64 |
| `Blob.lean` | src/blob.cpp |
| `Print.lean`, `Arith.lean`, `LongDouble.lean` | include/blobstamper/helpers.h (`to_string_precise`), stamp_arithm.h, stamp.h (`StampBaseV`) |
| `Oracle.lean` | src/oracle.cpp |
| `Dict.lean`, `DictData.lean` | src/dict.cpp, src/stamp_dict.cpp, src/stamp_text.cpp, `StampJSONString` |
| `Galley.lean`, `Bin.lean` | src/galley.cpp, include/blobstamper/galley.h |
| `Graph.lean` | size queries, recursion flags and `ExtractStr` of all string stamps: stamp_enumerator, stamp_text, stamp_math_op, stamp_lottery, stamp_json |
| `Calls.lean` | the size queries again, every call made and counted, and extraction with its calls counted |
| `Asking.lean` | `extract_internal` of both galleys, the picker and the lottery with every size query of the code |
| `Load.lean` | src/stamp.cpp, `LoadAll` |
| `Owner.lean` | `sized_ptr`, `VLATO_ptr`, `ExtractPValue` |
| `Hexdump.lean` | src/helpers.cpp, `Blob::Dump` |
| `Lifetime.lean` | copying and destroying stamp objects |
| `Order.lean` | `ExtractStr` with any order of evaluation of the operands |
| `Console.lean` | console_demo/pulp2json.cpp |
| `Record.lean` | stamps for structures and lists of them: README.md 157-343, examples/example03.cpp to example08.cpp |
| `Expr.lean` | the stamp for expressions: examples/exampleZZ.cpp 11-36, 55-66 |
| `Experiment.lean` | the recursion experiment of t/320-galley-recursion-experiments.cpp: `fit_sizes`, `VariantPicker`, `WeightedRefPicker::pick`, `GalleySimpleRecusion` |
| `TestChars.lean` | the stamps of t/test-chars-stamps.h |
| `Conformance.lean`, `Conformance2.lean`, `Conformance3.lean` | expectations of the tests in /repo/t and what the examples print, evaluated on the model (no theorem depends on them) |

## 2. Properties

| id | property | status | theorems (namespace `BS`) | modelled, and proof idea |
|----|----|----|----|----|
| C01 | Chopping partitions the blob | proved | `C01_chopping_partitions` | concrete `Blob` (Blob.lean); refinement to the list of remaining bytes, induction over call histories |
| C02 | Chop fails exactly when short of data, and then changes nothing | proved | `C02_chop_exact` | same; case split on the size test |
| C03 | Two-argument Chop is greedy between its bounds | proved | `C03_chop2_greedy` | same |
| C04 | All blob read-outs agree | partial | `C04_readouts_agree_partial`, `C04_exact`, `C04_violated_empty`, `C04_violated_null` | same; undefined read-outs of empty and null blobs exhibited |
| C05 | isEmpty tells whether data is left | partial | `C05_isEmpty_partial`, `C05_violated` | same; `isEmpty` is true exactly of null blobs |
| C06 | Arithmetic stamp is a bijection on bytes | proved | `C06_arith_bijection`, `C06_unique` | little-endian decoding (Arith.lean); injectivity by induction on bytes |
| C07 | Integer stamp strings denote the extracted value | partial | `C07_integer_text_partial`, `C07_violated` | `to_string_precise` with its 4-byte buffer (Print.lean); numeral round trip |
| C08 | Float and double strings are exact | proved | `C08_double_exact`, `C08_float_exact` | `%.999g` of a dyadic rational; decimal expansion is finite with fewer than 999 digits |
| C09 | Oracle proportion stays in range | proved | `C09_proportion_in_range` | `OracleProportion` in binary32 (Oracle.lean); rounding is monotone and bounded |
| C10 | Oracle proportion is monotone and starts at min, ends at max | proved | `C10_proportion_monotone` | same |
| C11 | Small oracle ranges are exactly proportional and fully covered | proved | `C11_small_ranges_exact` | same; products of 16-bit oracle and small range are exact |
| C12 | Dictionary stamp always picks a word of the dictionary | proved | `C12_dict_picks_word`, `C12_empty_dictionary_undefined` | `StampDict` (Dict.lean); rounding lemmas in binary64 |
| C13 | Every dictionary word can be produced | proved | `C13_every_word_reachable` | same; for each index an explicit oracle value and a bound on the error of the double computation; 65535 words by exact rounding |
| C14 | Dictionary index width is the smallest that fits | partial | `C14_width_partial`, `C14_violated` | same; case split on the dictionary size |
| C15 | Text stamps give NUL-free text of the same length | proved | `C15_latin1_text`, `C15_ascii_text`, `C15_empty_throws` | text stamps; list lemmas |
| C16 | Galley vector, fixed-size stamp | proved | `C16_fixed_pieces` | `GalleyVectorBase` (Galley.lean), fixed size; induction on the number of pieces |
| C17 | Galley vector always terminates | partial | `C17_terminates_partial`, `C17_exact`, `C17_violated` | same; loop measure is the remaining size |
| C18 | Galley vector, variated stamp | partial | `C18_variated_pieces_partial`, `C18_violated` | same, variated; loop invariant with C09 |
| C19 | Galley vector, unbounded stamp: pieces fit and use everything | partial | `C19_unbounded_pieces_partial`, `C19_every_run_partial`, `C19_violated_count`, `C19_violated_overflow`, `C19_violated_rounding`, `C19_violated_three` | same, unbounded; error analysis in binary32; inversion of the loop for every run that returns |
| C20 | Galley vector minSize is enough | partial | `C20_minSize_enough_partial`, `C20_exact`, `C20_violated` | corollary of C16, C18, C19 |
| C21 | Galley set returns one piece per stamp, in order, within the blob | partial | `C21_pieces_partial`, `C21_outcome_partial`, `C21_set_pieces_partial`, `C21_violated_zero`, `C21_violated_all_zero`, `C21_violated_remainder` | `GalleySetBase` (Galley.lean); inversion of a run that returns for the shape; error analysis in binary64 with loop invariants over prefixes for the outcome; a non-finite coefficient is never survived |
| C22 | Galley set gives every stamp its minimum | partial | `C22_minimum_partial`, `C22_two_unbounded`, `C22_violated` | same; error analysis: a share is off by less than the carried remainder of 1/2 |
| C23 | Galley set respects variated maxima up to one byte | proved | `C23_maximum` | inversion of a run that returns: coefficient at most 1 + rounding, remainder at most 1/2, share at most max-min rounded up to the next binary64 |
| C24 | Galley set with an unbounded stamp consumes everything; without one it stays within maxSize | partial | `C24_consumed_partial`, `C24_violated` | same |
| C25 | Galley set fails cleanly | partial | `C25_short_throws_partial`, `C25_exact`, `C25_violated` | same; the loop over the sizes stops at the first sum beyond int (Props/SetOver.lean) |
| C26 | Enumerator output format | partial | `C26_enumerator_partial`, `C26_exact`, `C26_text_exact`, `C26_text_partial`, `C26_violated` | enumerator and text join (Graph.lean); list induction |
| C27 | Math operator stamps build balanced text | proved | `C27_unary`, `C27_binary`, `C27_balanced` | math operators; list induction, bracket counting |
| C28 | Lottery sizes after any history of appends | partial | `C28_min`, `C28_max_partial`, `C28_max_after`, `C28_members`, `C28_violated_max`, `C28_violated_empty` | `StampLottery` members; invariant over append histories |
| C29 | Lottery picks a stamp that fits | partial | `C29_lottery_picks_fitting`, `C29_exact`, `C29_violated` | lottery extraction; filter lemmas and rounding; the filter's result written out for sizes beyond int (Props/LotAny) |
| C30 | Every fitting lottery stamp can win | proved | `C30_every_candidate_wins` | lottery built by any history; explicit oracle value for each candidate |
| C31 | Pool picker picks a stamp that fits and never aborts | partial | `C31_picks_fitting`, `C31_short_throws`, `C31_picker_partial`, `C31_violated`, `C31_violated_huge` | `PoolPickerStamp` on object graphs; filter lemmas and C09 |
| C32 | Size queries leave no trace | proved | `C32_no_trace` | recursion flags as state; induction on call depth |
| C33 | Size queries terminate on cyclic grammars | partial | `C33_ends_partial`, `C33_single_child`, `C33_violated`, `sum_min_negative` | same; induction on unmarked pickers |
| C34 | Picker minSize is the least derivation size | partial | `C34_least_derivation`, `C34_single_child`, `C34_converse`, `C34_otherwise`, `C34_violated` | same; a derivation is a finite tree, sizes by path arguments; the sentinel INT_MAX/2 beyond |
| C35 | isRecursive recognises recursion | partial | `C35_recognised_partial`, `C35_exact`, `C35_only_recursive`, `C35_violated` | same; reachability through pickers |
| C36 | Generation terminates | partial | `C36_ends_partial`, `C36_violated` | extraction on arbitrary graphs; well-founded induction on remaining bytes and rank |
| C37 | Extraction only consumes a prefix | proved | `C37_rest_is_suffix`, `C37_stays_inside`, `C37_same_end` | same; induction on fuel |
| C38 | Output depends only on the remaining bytes | proved | `C38_bytes_decide`, `C38_divergence` | same; refinement of the concrete blob |
| C39 | Enough data means success | partial | `C39_enough_partial`, `C39_small_partial`, `C39_violated` | same; induction on grammar and bytes with the C19 bounds |
| C40 | Consumption lies between minSize and maxSize | partial | `C40_every_run_partial`, `C40_expressions`, `C40_consumption_partial`, `C40_bounded_partial`, `C40_operators_partial`, `C40_violated`, `C40_violated_list`, `C40_violated_sum` | every run that returns, by induction on the depth of calls: lists by C16, C18 and the count of C19, sets by what C24 says of every set that returns, structures member by member, choices by the sizes of what is chosen; in addition induction over the make-up for bounded stamps |
| C41 | StampJSON succeeds on every sufficiently large blob | partial | `C41_json_partial`, `C41_exact_partial`, `C41_violated`, `C41_violated_every_size` | the object graph of `StampJSON`; induction on blob size |
| C42 | StampJSON output is JSON | partial | `C42_json_partial`, `C42_json_finite_partial`, `C42_violated` | same, against a separate JSON grammar (Spec/Json.lean) |
| C43 | Load then Unload equals Extract | proved | `C43_load`, `C43_load_unload`, `C43_unbounded`, `C43_unload_once`, `C43_unload_unloaded`, `C43_json_string_differs` | `Load`/`Unload` (Load.lean); direct |
| C44 | LoadAll loads every stamp with its own piece | partial | `C44_load_all_partial`, `C44_enough_partial`, `C44_short_partial`, `C44_violated`, `C44_violated_lost` | `LoadAll`; corollary of C21, C22, C25 |
| C45 | Hex dump is faithful and stays in its buffer | proved | `C45_dump`, `C45_overrun`, `C45_endless`, `C45_exact` | `hexdump` with its 100-byte line buffer (Hexdump.lean); loop invariant |
| C46 | Owned buffers are freed exactly once | partial | `C46_exact`, `C46_freed_once_partial`, `C46_gone`, `C46_extractPValue`, `C46_violated`, `C46_violated_leak` | ownership of heap blocks (Owner.lean); invariant over histories; exactly: after a copy of an object that holds a buffer some living object always points to a block that is freed or has a second owner, until the last one is destroyed |
| C47 | Owned buffers have the size they report | partial | `C47_size_partial`, `C47_exact`, `C47_violated` | same |
| C48 | Binary galleys apply each stamp to its own piece | partial | `C48_vector_bin_partial`, `C48_set_bin_partial`, `C48_violated` | binary galleys (Bin.lean); induction on pieces |
| C49 | Vectors of arithmetic values | partial | `C49_arith_vector_partial`, `C49_violated` | same, with C16 |
| C50 | Sets of arithmetic stamps | proved | `C50_arith_set` | same, with C21 specialised to fixed sizes |
| C51 | Shape of floating-point text | proved | `C51_double_shape`, `C51_float_shape`, `C51_nonfinite` | `%.999g` (Print.lean) against a separate description (Spec/FloatText.lean) |
| C52 | long double stamps | partial | `C52_value_partial`, `C52_violated` | `long double` (LongDouble.lean); direct |
| C53 | Which stamp a picker takes | proved | `C53_picker_exact`, `C53_json_kind`, `C53_json_text` | picker choice, with C11 |
| C54 | Length of JSON text | proved | `C54_json_length` | the JSON graph; induction on fuel with length bounds of numerals |
| C55 | Stamps depend only on their parts | proved | `C55_local` | two graphs that agree on reachable objects; induction on call depth |
| C56 | Copies of StampJSON | partial | `C56_copy_partial`, `C56_known`, `C56_violated` | copying an object (Lifetime.lean); both graphs compared by C55-style induction |
| C57 | Stamps keep their parts alive | partial | `C57_owned_partial`, `C57_pickers_partial`, `C57_violated` | survivors of releasing variables (Spec/Lifetime.lean); corollary of C55 |
| C58 | The built-in dictionary | proved | `C58_words`, `C58_choice`, `C58_order` | the word list (DictData.lean); evaluation over the whole table, lifted to blobs |
| C59 | Short data is refused | partial | `C59_short_refused_partial`, `C59_json`, `C59_violated` | `Strict` (Spec/Short.lean) lists the compositions; induction on it, with the set galley's and the picker's short cases and C34 for recursive pools |
| C60 | A refused extraction gives its bytes back | partial | `C60_throw_keeps_data_partial`, `C60_unary`, `C60_list`, `C60_list_any`, `C60_set`, `C60_set_any`, `C60_set_rest`, `C60_lottery`, `C60_picker`, `C60_violated`, `C60_violated_seq` | `Intact` (Spec/Short.lean); inversion of the throwing run, node by node; for lists, sets, structures, lotteries and pickers what exactly is left (Props/Tidy.lean, from C67 and C83; Props/Taken.lean for stamps of any size, by following the blob past the first oracle) |
| C61 | The language of StampJSON | proved | `C61_language`, `C61_member`, `C61_empty` | value trees with a text relation and a size relation (Spec/JsonTree.lean); induction on the size of the blob, inverting picker, galley and member |
| C62 | Every JSON value can be generated | partial | `C62_every_value_partial`, `C62_large_partial`, `C62_integers`, `C62_violated`, `C62_violated_long` | induction on the value; the size oracles are computed backwards from the wanted piece sizes (Lemmas/UnbExact.lean, and Lemmas/UnbDivide.lean for large ones, where the last piece may lose a byte: every value is built both for its room and for one byte more) |
| C63 | Sizes of composite stamps | proved | `C63_leaves`, `C63_list`, `C63_set`, `C63_seq`, `C63_unary`, `C63_picker` | unfolding of `sizeQ`; the sums are stated anew in Spec/Galley.lean (`vecNeeds`, `setNeeds`, `setTakes`) |
| C64 | Order of evaluation does not matter | proved | `C64_order`, `C64_clean` | a copy of `extract` with an arbitrary order at set nodes (Order.lean) is compared step by step: pieces are cut before the first extraction, and every run keeps the flags |
| C65 | Which characters a text can contain | partial | `C65_chars`, `C65_noNul_partial`, `C65_json`, `C65_violated` | a predicate on characters is carried through every node (Spec/Chars.lean), numbers by the shape of their numerals |
| C66 | pulp2json prints one line of JSON for every file | partial | `C66_line_partial`, `C66_violated_short`, `C66_violated_empty`, `C66_violated_large`, `C66_usage`, `C66_resized` | `main` is transcribed (Console.lean); the claims come from C41, C42, C54, C59 and C65 |
| C67 | A stamp made of stamps succeeds exactly when its parts do | proved | `C67_list`, `C67_set`, `C67_seq`, `C67_unary` | runs on concrete blobs are exchanged for runs on byte strings (`returns_iff`, `throws_iff`); both directions then follow by taking `extract` apart at the node |
| C68 | Stamps for structures read the members in order and write texts that can be read back | proved | `C68_value`, `C68_vector`, `C68_text`, `C68_sizes`, `C68_list`, `C68_polyline`, `C68_injective` | C67, C16 and C63 applied to the graph of Record.lean; the way back splits a text into its longest runs of digits and minus signs |
| C69 | Every division of the data among the stamps of a set can occur | partial | `C69_few`, `C69_division_partial`, `C69_violated_large` | the two-byte weights are taken equal to what each piece has above its minimum, so the stretching factor is 1 and no rounding is left; for the violation, one step of a weight is worth more bytes than the piece may get; with one unbounded stamp no oracle is read, and bytes can be cut in one way only into pieces of which all but one have given lengths |
| C70 | The expression stamp of exampleZZ always writes one well-formed expression that can be read back | proved | `C70_sizes`, `C70_total`, `C70_language`, `C70_unambiguous` | induction on the size of the blob: the soft size filter leaves only operators from nine bytes on and only leaves below; C22_two_unbounded cuts the rest into two pieces of two bytes or more. Texts are read from the left, leaf by leaf |
| C71 | The expression stamp can write every expression | partial | `C71_every_partial`, `C71_violated_lopsided`, `C71_operators` | induction on the expression with C13, C30 and C69; for the violation, a small left operand would need a smaller step than a two-byte weight allows |
| C72 | Choices are even | proved | `C72_words`, `C72_lottery`, `C72_picker` | the index is a monotone function of the oracle; the number of oracles below a threshold is bounded from both sides by the error of the rounded quotient and product, and the difference of two such numbers is the share |
| C73 | How deep the calls go | proved | `C73_linear`, `C73_json`, `C73_deep` | pickers and lotteries take at least one byte before they call on, the other stamps go down in a rank; the budget is the size times the greatest rank, plus the rank of the stamp, plus what size queries need. For the depth reached, six zero bytes are one more array around the rest |
| C74 | Every text is put together from the texts of single stamps, each made from bytes of its own | proved | `C74_composed`, `C74_rule` | one induction over the calls carries any relation between stamp, data, text and what is left that all ways of making stamps of stamps preserve; that the pieces of galleys lie apart follows from each being chopped from what the one before left |
| C75 | fit_sizes shares a size out exactly | proved | `C75_fit`, `C75_two`, `C75_zero_seed`, `C75_no_seeds`, `C75_fit_needed` | the sizes so far plus the remainder stay within k/2^19 of the share of the first k seeds; the remainder is at most 1/2, so at the end the sum is an integer closer than 1 to the size |
| C76 | VariantPicker and WeightedRefPicker cut the range of the seed evenly | partial | `C76_pick`, `C76_every`, `C76_returned_partial`, `C76_returned_wrong`, `C76_returned_needed`, `C76_no_variants`, `C76_weighted`, `C76_weight_zero` | the running sum after k variants is within k/2^44 of 255k/n; multiplied by n that is less than 1, so comparing with it decides as comparing integers does, but for equality |
| C77 | The recursion experiment writes well-formed expressions | proved | `C77_total`, `C77_every`, `C77_violated_lopsided` | C75 cuts the rest in two pieces of at least two bytes each, C76 gives one of five operators; induction on the size. For every expression, an oracle value next to the wanted quotient makes fit_sizes return the wanted size |
| C78 | The stamps of the library's own tests | proved | `C78_chars`, `C78_object`, `C78_exacting`, `C78_list`, `C78_two`, `C78_several` | Chop(min, max) takes the first max bytes; the C string is the longest prefix without a NUL. The list follows from C16 and C67 |
| C79 | Every division of the data among the elements of a vector can occur | partial | `C79_division_partial`, `C79_single`, `C79_violated_large` | the weights are twice what each piece has above its minimum, one more for the first and one less for the last: every running total then lies half a byte above a whole number, farther than the errors of the float arithmetic reach; for the violation, a weight that is not zero is at least one in 65536 |
| C80 | How deep the text of StampJSON nests | proved | `C80_depth`, `C80_depth_large`, `C80_reached` | induction on the run: every level of brackets takes two bytes to pick the stamp, two to count the elements and two per element; for the depth reached, the blob is built from the inside outwards |
| C81 | Unbounded stamps use the blob up | partial | `C81_used_up_partial`, `C81_list_partial`, `C81_json_partial`, `C81_violated_list`, `C81_violated_lottery`, `C81_violated_json` | induction on the make-up of the stamp, using C67 for the parts, C24 for sets and C19 for lists |
| C82 | Data are shared out in proportion to the oracles | partial | `C82_list_partial`, `C82_list_piece_partial`, `C82_set_partial`, `C82_violated_zero`, `C82_violated_count` | error bounds for every beginning of the list of shares: the remainder carried along stays below one (lists) or a half (sets), and the rounding errors are bounded by the total size |
| C83 | Stamps of fixed size | partial | `C83_sizes`, `C83_exact_partial`, `C83_list`, `C83_lottery`, `C83_violated_string`, `C83_violated_lottery` | induction over the make-up of the stamp: each kind of stamp cuts off exactly the bytes of its members, whatever follows them; soft filters of choices pass all members or none |
| C84 | Operators with two operands: enough data means success | partial | `C84_enough_partial`, `C84_oracles_partial`, `C84_violated_zero`, `C84_violated_three` | induction over the size of the blob (lotteries and pickers consume) and the make-up of the grammar; every piece a set hands out is at least what its stamp asks for: with at most one unbounded stamp because no oracle is read, with two by the analysis of the rounding |
| C85 | Asking about recursion changes nothing | partial | `C85_asking_partial`, `C85_same`, `C85_same_answer`, `C85_violated`, `C85_violated_undefined` | simulation between runs from different flags: only stamps from which picking can go on for ever are ever marked (invariant of isRecursive()), and their maxSize() is -1 with or without the mark |
| C86 | A size query costs no more than the stamps there are | partial | `C86_same_sizes`, `C86_calls_partial`, `C86_bounded`, `C86_list_max`, `C86_lists`, `C86_pickers`, `C86_violated`, `C86_json` | a second model of the size functions that makes every call the code makes and counts them (Calls.lean); its values equal those of the first; exact cost of nested lists and of pickers that hold each other by induction on the number of stamps not being asked; upper bound by induction on the depth of calls |
| C87 | The work of an extraction is proportional to its data | proved | `C87_same`, `C87_weights`, `C87_linear`, `C87_json`, `C87_needs_guard` | a second extraction that counts, equal to the first once the count is forgotten; a budget per stamp and number of bytes that every kind of stamp keeps to: pickers and lotteries pay with their oracle, lists with the oracle of each part or its bytes |
| C88 | The length of any text is proportional to the data | proved | `C88_calls`, `C88_weights`, `C88_linear`, `C88_expr`, `jsonGraph_terse`, `exprGraph_terse` | by induction on the counting extraction of C87: each call pays for the brackets and the separator of its own text, each byte for what a leaf prints; then the bound on the calls |
| C89 | Asking for a size again changes nothing | partial | `C89_asking_partial`, `C89_same_partial`, `C89_grammar`, `C89_json`, `C89_violated` | each loop of the galleys is written down with its questions and follows, blob for blob, the loop that was given the sizes; a size query that returns leaves the flags as they were (C86) |
| C90 | All calls of an extraction are proportional to its data | proved | `C90_total`, `C90_weights`, `C90_json` | each part a list makes is either run, and its call of ExtractStr pays for the questions asked about it, or is never run because the list failed, and then its bytes pay; induction over the run with the two counts side by side |
| C91 | Other data for the single stamps leaves everything else as it is | proved | `C91_swap`, `C91_any`, `C91_json`, `expr_open`, `record_open`, `C91_violated_user` | a parser that has returned reads its oracles from fixed places and asks only for the size of what is left, so it does the same on other data that agree at these places; splits give a form with one place for each part, and forms are put into forms by induction on the run |
| C92 | One stamp used in two places, or two copies of it, makes no difference | proved | `C92_same`, `C92_sizes`, `C92_grounded`, `C92_grammar_sizes`, `C92_grammar`, `C92_copy`, `C92_unroll`, `C92_json`, `C92_expr`, `C92_alike`, `C92_violated` | two runs side by side, by induction on the steps, given equal sizes; sizes are equal by induction on the rank where pickers do not recurse; in picker grammars a bounded maximum belongs to a tree of pickers without recursion, and minima are least derivations (C34), which copying preserves in both directions; where pickers stay apart, two runs of every size question side by side, with equal flags at corresponding pickers |
| C93 | The order of alternatives does not limit what can be made | proved | `C93_texts`, `C93_grammar`, `C93_json`, `C93_expr`, `C93_lottery`, `C93_violated` | every run is replayed with other data of the same size: by induction on the steps, each oracle of a picker or lottery is replaced by one that chooses the corresponding member of the list of candidates that fit, which exists because the candidates correspond as sets and the width suffices for their number; the data of galleys are refilled piece by piece (the splitting of C91). Sizes: C92 for pickers, least and greatest of a set for lotteries |
| C94 | Further alternatives take no text away | proved | `C94_texts`, `C94_expr`, `C94_json`, `C94_violated` | the replay of C93 with other data of the same size needs one direction only: an old candidate is still a candidate, because whatever makes the second filter of the picker or lottery bite was there before, in the shape of the alternative that covers the new one |
| C95 | Bytes that are left over have no influence | proved | `C95_ends`, `C95_returns`, `C95_throws`, `C95_prefix`, `C95_galleys`, `C95_experiment`, `C95_violated` | each step of the program is shown to be blind to the bytes it leaves, whatever its outcome; steps in sequence stay blind, sizes count as many as before, and work on a piece cut off leaves the rest alone; then by induction on the depth of calls |
| C96 | There are no more texts than data | proved | `C96_count`, `C96_any`, `C96_bounded`, `C96_reached`, `C96_violated_user` | by C95 the text is determined by the first k bytes; the texts are then listed by going through all strings of k bytes |
| C97 | Every text for which there is room can be made | proved | `C97_room`, `C97_trees` | induction on the way the room is reckoned: for each rule the oracles that lead to the wanted winner or the wanted pieces are put before the bytes of the parts (C11, C13, C30, C69, C79); the converse of C74 |
| C98 | Threads that share no pool picker do not disturb each other | proved | `C98_threads`, `C98_ends`, `C98_extract`, `C98_returns`, `C98_violated_every`, `C98_violated_size`, `C98_violated_text`, `C98_violated_lasting`, `C98_violated_overflow`, `C98_violated_abort` | the code is written a second time as a program of single accesses to the members (proved equal to the model when it runs alone); a program touches only the members of the pickers below its stamps, so steps of other threads commute with it |
| C99 | Loaded stamps read the client's memory when they are unloaded | proved | `C99_load`, `C99_unload`, `C99_extract`, `C99_elsewhere`, `C99_load_change_unload`, `C99_freed`, `C99_after_load`, `C99_after_load_all`, `C99_after_unload`, `C99_after_extract`, `C99_program`, `C99_apart`, `C99_one_byte`, `C99_value` | blobs as addresses into a memory that changes between calls (Shared.lean); each call is the one of the rest of the model on what the memory holds then |

## 3. Trusted base

* The Lean kernel. No axioms are added; `sorry`, `admit`, `native_decide` and `bv_decide` are not used.
  `#print axioms` on the theorems of the manifest gives:
* no axiom at all: `C28_violated_max`, `C28_violated_empty`.
* only `propext`: `C04_violated_empty`, `C04_violated_null`, `C05_violated`, `C46_violated_leak`, `C63_leaves`, `C86_list_max`.
* only `Quot.sound`, `propext`: `C14_width_partial`, `C14_violated`, `C28_members`, `sum_min_negative`, `C46_gone`, `C46_extractPValue`, `C46_violated`, `C47_size_partial`, `C47_violated`, `C56_known`, `C63_list`, `C63_seq`, `C63_unary`, `C83_lottery`, `C85_violated_undefined`, `C86_calls_partial`, `C86_lists`, `jsonGraph_terse`, `record_open`, `C92_sizes`, `C93_lottery`.
* `propext`, `Classical.choice`, `Quot.sound`: the other 353 theorems of the manifest.
* The faithfulness of the transcription from C++ to Lean. It was checked by reading, by re-running the
  expectations of the repository's own tests on the model (`Conformance.lean`, `Conformance2.lean`, `Conformance3.lean`) and by seeded bugs
  (`seeded/LOG.jsonl`).
* The platform: LP64, little endian, x86-64 Linux; two's complement; `char` is signed; glibc `printf`
  and libstdc++ (`__to_xstring` as in ext/string_conversions.h); IEEE-754 with `FLT_EVAL_METHOD` 0, no
  contraction to fused multiply-add, default rounding mode; "C" locale.
* Copies that gcc and clang elide are taken as elided (C46).

## 4. Findings: where the code does not do what the property says

Each is a theorem with a witness.

| theorem | finding | where |
|---------|---------|-------|
| `C04_violated_empty`, `C04_violated_null` | `AsByteVector` of an exhausted blob and `DataDup` of a null blob are undefined | blob.cpp 79, 95 |
| `C05_violated` | `isEmpty()` is false of a blob with no bytes left | blob.cpp 35-39 |
| `C07_violated` | the text of a `signed char` from -128 to -100 ends in NUL instead of its last digit (4-byte buffer) | helpers.h 63, 68 |
| `C12_empty_dictionary_undefined` | a dictionary without words is read at index -1 | stamp_dict.cpp 78-80 |
| `C14_violated` | dictionaries of 65537 to 2^32 words use 8 index bytes: `UINT_MAX + 1` is 0 | stamp_dict.cpp 37 |
| `C17_violated`, `C36_violated` | a vector over a stamp of fixed size 0 loops for ever | galley.cpp 89-93 |
| `C18_violated` | minimum INT_MAX-1: `minSize() + 2` overflows | galley.cpp 168 |
| `C19_violated_count`, `C20_violated` | with fewer bytes than the vector's `minSize()` but enough for the stamp, the result is an empty list instead of `OutOfData` | galley.cpp 81, 116-122 |
| `C19_violated_overflow`, `C41_violated`, `C41_violated_every_size` | the sum of the size oracles overflows `int` from 32769 elements on (`StampJSON`: some blob of every size from 393232 bytes) | galley.cpp 131 |
| `C19_violated_rounding`, `C39_violated` | `float` rounding asks for more bytes than there are: `OutOfData` on a blob of 16777227 bytes | galley.cpp 151-155 |
| `C21_violated_zero`, `C21_violated_all_zero` | all variated oracles 0: 0/0 is converted to `int` | galley.cpp 313, 335-336 |
| `C21_violated_remainder`, `C22_violated` | a stamp that reads oracle 0 may get one byte less than its minimum, or a piece of size -1 | galley.cpp 335-338 |
| `C24_violated` | from 2^31 bytes on `int` truncation leaves the unbounded stamp nothing | galley.cpp 236 |
| `C25_violated` | sums of sizes overflow `int` | galley.cpp 204-207 |
| `C26_violated` | an empty first element loses its separator | stamp_enumerator.cpp 33 |
| `C28_violated_max`, `C28_violated_empty` | appending a bounded stamp after an unbounded one makes the lottery bounded; an empty lottery has sizes 0 and -1 | stamp_lottery.h 40, 219-220 |
| `C31_violated` | a picker without affordable derivation aborts the program on a blob of a gibibyte | stamp_json.cpp 89-96 |
| `isRecursive_leaves_trace` | `isRecursive()` changes later `maxSize()` answers | stamp_json.cpp 47, 130 |
| `C29_violated` | a recursive lottery over a stamp of 2^30 bytes: on every blob of 2^30+1 to 2^31 bytes, where the stamp fits, adding its minimal to its maximal size overflows an `int` | stamp_lottery.h 61-71 |
| `C33_violated`, `sum_min_negative` | `minSize()` of a binary operator over recursive enumerators overflows `int` or is negative | galley.cpp 410, stamp_json.cpp 106 |
| `C34_violated`, `C31_violated_huge` | a picker over a stamp of 2000000000 bytes needs 2000000002 bytes, but reports 1073741823, the value that stands for no derivation at all; on a blob of 1073741825 to 2000000001 bytes it aborts | stamp_json.cpp 107-119 |
| `C35_violated` | `isRecursive()` is false of `StampJSON` | stamp_json.cpp 37-54 |
| `C40_violated`, `C43_json_string_differs` | `StampJSONString` asks for 8 bytes and takes 1 | stamp_json.h 60, stamp_json.cpp 158 |
| `C42_violated` | an infinite or NaN double prints as `inf` or `nan`, which is not JSON | stamp_json.h 51 |
| `C43_unload_unloaded` | `UnloadStr` before `Load` dereferences a null pointer | stamp.h 63 |
| `C44_violated`, `C44_violated_lost` | `LoadAll` may throw half way, or drop the last byte of a piece | galley.cpp 353-363 |
| `C45_overrun`, `C45_endless` | `Dump` of a blob from 2^31 bytes on overruns its line buffer or never ends | helpers.cpp 41 |
| `C46_violated`, `C46_violated_leak` | copying a `sized_ptr` frees twice; `ExtractPValue` leaks when it throws | helpers.h 117, stamp.h 107-108 |
| `C47_violated` | `VLATO_ptr` sizes wrap around `size_t` | helpers.h 133, 144 |
| `C48_violated`, `C49_violated` | the `int` loop counter over 2^31 pieces overflows | galley.cpp 71, galley.h 84 |
| `C52_violated` | a `long double` is printed with `%.999g`: undefined | helpers.h 96-97 |
| `C56_violated` | a copy of a `StampJSON` uses the original, also after it is gone | stamp_json.cpp 181-182 |
| `C57_violated` | a picker does not keep stamps given to `add_weak` alive | stamp_json.cpp 150-153 |
| `C59_violated` | an enumerator over stamps of varying size returns an empty list on less than its `minSize()`; a hash element asks for 18 bytes and works with 11 | galley.cpp 80-175, stamp_json.h 60-61 |
| `C60_violated_seq`, `C60_lottery`, `C60_picker` | whenever a structure throws after its first stamp has read, that stamp's bytes are lost; a lottery and a pool picker lose their oracle in every throw but the one for want of it | README.md 207-213, stamp_lottery.h 140-180, stamp_json.cpp 56-60 |
| `C60_list_any`, `C60_set_any`, `C60_set_rest` | a list or a set over stamps of varying size that throws for any reason but want of bytes has lost its oracles and all pieces | galley.cpp 86-180, 226-351 |
| `C60_violated` | stamps made of several lose bytes when they throw | README.md 207-213, stamp_lottery.h 140-208, stamp_json.cpp 56-101 |
| `C62_violated` | `StampJSON` never makes an object with a number or string as a member: a member's piece has 18 bytes or more, and with that many the picker takes arrays and objects only | stamp_json.cpp 71-88, stamp_json.h 72-83 |
| `C62_violated_long`, `C61_empty` | the number of elements of a list over an unbounded stamp is kept in 16 bits: no array has more than 65535 elements, and 65536 become none (`StampJSON` gives `[]` on 786424 bytes) | galley.cpp 120 |
| `C65_violated` | the NUL of C07 gets into the text of every stamp above: the list of -128 and 5 is `-12`, NUL, `,5` | helpers.h 63, 68 |
| `C66_violated_short`, `C66_violated_empty`, `C66_violated_large` | `pulp2json` dies of an uncaught exception on files of 1 to 9 bytes, reads element 0 of an empty vector on an empty file, and prints nothing for some file of every size from 393232 bytes on | pulp2json.cpp 55, 60 |
| `C19_violated_three` | with three pieces, roundings in `float` add up to one byte more than the blob has: a blob of 6276887 bytes and a stamp of at least 239237 bytes throw OutOfData | galley.cpp 147-157 |
| `C69_violated_large` | two unbounded stamps and more than 98541 bytes: the first piece never has exactly one byte above its minimum; with c times 65537 bytes and some more it never has 1 to c bytes above it, because a weight has only two bytes | galley.cpp 188-351 |
| `C71_violated_lopsided` | no blob makes the stamp of exampleZZ write an expression whose left operand is small (but no leaf) and whose right operand has 122000 times as many leaves | galley.cpp 188-351, exampleZZ.cpp |
| `C73_deep` | a blob of 6d+10 zero bytes (up to 16 MB) makes `StampJSON` nest d arrays and at least 2d calls: 100 kB of zeros are 16665 arrays deep, which a usual stack may not hold | stamp_json.cpp 56-103, stamp_enumerator.cpp |
| `C75_zero_seed`, `C75_no_seeds` | `fit_sizes({1,0,1}, 1)` converts -1 to `unsigned int` (undefined); so do seeds that are all 0, and no seeds fail the `assert` | t/320 110-135 |
| `C76_returned_wrong` | `VariantPicker` with 18 variants in one object and the last object disabled, seed 255: it returns the disabled object, with the choice marked in the other | t/320 97-107 |
| `C76_no_variants` | no variants: the program is stopped, or for seed 0 an uninitialised pointer is used (the source says so) | t/320 99-105 |
| `C76_weight_zero` | `WeightedRefPicker`: byte 0 picks a first reference of weight 0 | t/320 173-178 |
| `C77_violated_lopsided` | the recursion experiment cannot write an expression whose left operand has two or more numbers and whose right operand has 120,000 times as many: the 16-bit oracle does not divide so unevenly | t/320 fit_sizes, TestRNode1::do_recursion |
| `C79_violated_large` | a vector over an unbounded stamp cut in two, with c times 65536 bytes and some more: the first piece never has 1 to c-1 bytes above the minimum, because a weight has only two bytes | galley.cpp 115-158 |
| `C81_violated_list`, `C81_violated_lottery`, `C81_violated_json` | stamps that report maxSize() -1 may leave data, against README.md 85-86: lists of stamps of fixed size (the last byte of five), lotteries (two of five bytes), StampJSON (five of fifteen) | galley.cpp 50-80; stamp_lottery.h 180-207; stamp_json.cpp 57-105 |
| `C82_violated_zero`, `C82_violated_count` | a set whose variated stamps all read the oracle 0 returns nothing although minima would do; a list counts its parts in 16 bits and may return none | galley.cpp 113-160, 188-345 |
| `C83_violated_string`, `C83_violated_lottery` | `StampJSONString` declares the fixed size 8 and takes 1 byte; a lottery that had an unbounded stamp appended before a bounded one declares a fixed size and takes the whole blob | stamp_json.h 55-63, stamp_lottery.h 211-231 |
| `C40_violated_sum` | a recursive picker asked for its maximum while it is being asked returns -1; a structure that adds up sizes as in the README takes this for a number, so the picker promises at most 3 bytes and takes 9 | stamp_json.cpp 126-147, README.md 192-200 |
| `C84_violated_zero`, `C84_violated_three` | an operator over two variated stamps returns nothing for a blob that begins with four zeros, however long it is; three unbounded stamps with 9 bytes of `minSize()` throw `OutOfData` on 14 bytes | galley.cpp 313, 335-338 |
| `C85_violated`, `C85_violated_undefined` | a user stamp derived from `StampRecursive` with a greatest size, in a picker in a list: after `isRecursive()` of the picker its `maxSize()` is -1 instead of 3 and the list makes another text of the same blob; a `maxSize()` that overflows becomes defined | stamp_json.cpp 37-54, 126-147, stamp.h 52-55 |
| `C86_violated`, `C86_lists`, `C86_pickers` | the number of calls a size query makes is not proportional to the number of stamps: `minSize()` of d+1 lists inside each other makes 7·2^d-3 calls, that of one of k pickers holding each other at least (k-1)! calls | galley.cpp 29-47, stamp.h 43-45, stamp_json.cpp 103-124 |
| `C89_violated` | reading both sizes before an extraction (as a refactoring might) would overflow on `maxSize()` of a lottery over a stamp of `INT_MAX` bytes, where the code throws `OutOfData` on a short blob |
| `C92_violated` | a recursive picker whose longer form adds up the maxima of its parts: with one object `maxSize()` is 3, with a copy in between it is 6, and a list of it makes "7" of three bytes in the first case and nothing in the second | stamp_json.cpp 126-147, README.md 192-200 |
| `C91_violated_user` | a client stamp that looks at bytes it does not take: other data elsewhere change its text | stamp.h 30-46 |
| `C93_violated` | `Append` of a bounded stamp after an unbounded one: the lottery says its maximum is 2, in the other order it is unbounded; of two bytes a list of the first makes "65", a list of the second no text but the empty one | stamp_lottery.h 211-231 |
| `C94_violated` | words and numbers of four bytes, then also numbers of two bytes: all sizes stay the same, but the lottery no longer makes "b" of three bytes nor the picker of four, since a number of two bytes fits better | stamp_lottery.h 180-198, stamp_json.cpp 65-78 |
| `C95_violated` | the number of bytes left does matter: a lottery of words and four-byte numbers makes a word of [0, 128, 7], leaving one byte, but a number of [0, 128, 7, 7, 7]; and a stamp of a client may look at bytes it does not take | stamp_lottery.h 180-198, stamp.h 59-64 |
| `C96_violated_user` | a client's stamp that takes one byte of three and writes the other two makes 65536 texts, not 256 | stamp.h 59-64 |
| `C98_violated_every` | two threads ask one pool picker, whichever, for its minimal size at the same time: the second can be told 1073741823 | stamp_json.cpp 107-119 |
| `C98_violated_size` | two threads ask one `StampJSON` for its minimal size at the same time: the second is told 1073741823 instead of 10 | stamp_json.cpp 107-119 |
| `C98_violated_text` | one thread asks a `StampJSON` for its minimal size, another extracts with it from thirty bytes 7: "506381209866536711" instead of "[[[506381209866536711]]]" | stamp_json.cpp 36-54, 107-119 |
| `C98_violated_lasting` | a picker over a picker over numbers: one thread asks the inner one for its minimal size, another asks the outer one whether it is recursive; it says yes, and its maximal size, 5, is without bound for ever | stamp_json.cpp 36-54, 130-144 |
| `C98_violated_overflow` | a structure of three JSON values: if its minimal size is asked while another thread asks the `StampJSON` for its own, three times 1073741823 is added up in an `int` | stamp_json.cpp 110-111 |
| `C98_violated_abort` | a picker over a picker over numbers, thirty bytes: if another thread asks the inner one for its minimal size at the wrong moment, the outer one calls `abort()` | stamp_json.cpp 80-97 |
| `C40_violated_list` | a list of unbounded stamps asks for 5 bytes; on 196607 bytes of which the first two are 255 its number of elements wraps to 0, and it returns an empty list having taken 2 | galley.cpp 120 |

## 5. Simplifications and what is not modelled

* Memory exhaustion (`std::bad_alloc`, `malloc` returning NULL), stack exhaustion by deep recursion.
* Threads (C98, `Threads.lean`): each access to `is_recursive` and `is_in_recursion` is one step, and the steps of all threads happen
  in one order; every question of the code is there (stamp.h 43 leaves the order of its two questions open, here the minimum comes
  first). (In C++ unsynchronised accesses to a shared picker are already undefined; the counterexamples show
  that it goes wrong even on a machine that orders them.) These calls write nothing else in a stamp.
* Lists of 2^31 and more stamps in one set galley, whose `int` counters would overflow.
* A stamp enters a galley through one `minSize()` and one `maxSize()`; the C++ asks again and again. C89
  proves that this makes no difference while the sizes are defined (`Asking.lean` has every question of the code). User-written stamps have constant sizes, and their
  extraction is a function of the bytes left in the blob; they do not modify other stamps.
* The two operands of a binary operator are extracted left to right; C++ leaves the order open. C64 proves
  that the order does not matter to a run that gives a text.
* One floating-point zero, no NaN payloads: the library neither divides by a negative zero nor prints a
  computed value. Signed zeros read from blobs and printed are modelled.
* The cast of `char` bytes to `T` in `StampArithm::ExtractValue` is taken to read the bytes, although C++
  type-based aliasing rules would allow other readings.
* A blob carries the contents of its buffer, as if nobody wrote to it; `Shared.lean` (C99) has blobs that are addresses, and a memory that
  the client may change or free between the calls `Load`, `LoadAll`, `UnloadStr` and `ExtractStr` (not during them).
* Using a destroyed object is undefined; the model calls it a null dereference.
* Contents of buffers owned by `sized_ptr` and `VLATO_ptr`; only ownership and sizes are modelled.
* `cast_shared_vector` and the `dynamic_pointer_cast`s of the galleys (they succeed by construction).
* `StampRecursive::minSizeNR`, which no class implements; `NotImplemented`, which nothing throws.
* t/321 line 41 says that a second `StampJSON` made in the same program makes it crash for an unknown reason. Nothing in the
  modelled code explains it: two stamps with no common part do not influence each other (C55, C92), and the run of the comment on its
  own data is defined (evaluated in `Conformance.lean`). The cause must lie outside of what is modelled.
* The build files, `t/` (except as test vectors, t/320 and t/test-chars-stamps.h), `console_demo/` (except pulp2json.cpp), and the
  `main` functions in `examples/`.
