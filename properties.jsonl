{"id": "C01", "title": "Chopping partitions the blob", "statement": "For any history of Chop(n) and Chop(min,max) calls on a Blob, the bytes of the chopped-off blobs in call order followed by the bytes still in the blob are exactly the bytes the Blob was built on: nothing lost, duplicated or reordered, also when some calls throw.", "quantifier": "every buffer, every finite sequence of chop calls with arbitrary size_t arguments", "why_tests_cant": "a test fixes one buffer and one short call sequence; the claim is about all histories and all size_t values, including the wrap-around of the internal end index at size 0", "anchors": ["src/blob.cpp: Blob::Blob, Blob::Chop, Blob::Size"]}
{"id": "C02", "title": "Chop fails exactly when short of data, and then changes nothing", "statement": "Chop(n) throws OutOfData iff n exceeds Size(); on success it returns exactly the first n bytes and Size() drops by n; when it throws, the blob is unchanged.", "quantifier": "every blob state and every size_t n", "why_tests_cant": "needs every n including values near 2^64 where index arithmetic could wrap", "anchors": ["src/blob.cpp: Blob::Chop(size_t)"]}
{"id": "C03", "title": "Two-argument Chop is greedy between its bounds", "statement": "Chop(min,max) throws OutOfData iff Size() < min and then leaves the blob unchanged; otherwise it takes exactly the smaller of max and Size().", "quantifier": "every blob state, every pair of size_t arguments, including max < min and max = (size_t)-1", "why_tests_cant": "all pairs of 64-bit arguments; max = -1 is how unbounded stamps call it", "anchors": ["src/blob.cpp: Blob::Chop(size_t,size_t)", "src/stamp_text.cpp"]}
{"id": "C04", "title": "All blob read-outs agree", "statement": "At every reachable state AsByteVector, asVector, asString and DataDup all return the same bytes, as many as Size() says, without reading outside the buffer, including for empty blobs.", "quantifier": "every reachable blob state", "why_tests_cant": "an over-read is invisible to an output test, and the empty blob relies on unsigned wrap-around", "anchors": ["src/blob.cpp: AsByteVector, asVector, asString, DataDup, Size"]}
{"id": "C05", "title": "isEmpty tells whether data is left", "statement": "isEmpty() returns true exactly when no bytes are left.", "quantifier": "every reachable blob state", "why_tests_cant": "quantifies over all histories that exhaust the blob", "anchors": ["src/blob.cpp: Blob::isEmpty"]}
{"id": "C06", "title": "Arithmetic stamp is a bijection on bytes", "statement": "StampArithm<T>::ExtractValue takes exactly sizeof(T) bytes from the front and returns the value whose little-endian object representation they are; ExtractBin of the same data returns those very bytes; two different byte strings never give the same value representation; OutOfData iff fewer than sizeof(T) bytes, leaving the blob unchanged.", "quantifier": "every integer and floating type T, every blob", "why_tests_cant": "2^64 values per type", "anchors": ["include/blobstamper/stamp_arithm.h", "include/blobstamper/stamp.h: StampBaseV::ExtractBin"]}
{"id": "C07", "title": "Integer stamp strings denote the extracted value", "statement": "For every integer T, StampArithm<T>::ExtractStr returns the decimal numeral of the value ExtractValue would return: reading the numeral back gives that value, there are no superfluous zeros and no other characters.", "quantifier": "every integer type and every value", "why_tests_cant": "every value of every width; the failing values sit in a corner of one type", "anchors": ["include/blobstamper/helpers.h: to_string_precise", "include/blobstamper/stamp_arithm.h"]}
{"id": "C08", "title": "Float and double strings are exact", "statement": "For finite float and double values ExtractStr returns a decimal numeral that denotes exactly the extracted value, with no rounding.", "quantifier": "all finite binary32 and binary64 bit patterns", "why_tests_cant": "2^64 bit patterns; precision loss shows only on particular values", "anchors": ["include/blobstamper/helpers.h: to_string_precise(float/double)"]}
{"id": "C09", "title": "Oracle proportion stays in range", "statement": "OracleProportion(o,min,max) is at least min and at most max.", "quantifier": "every 16-bit oracle and every pair of size_t with min <= max", "why_tests_cant": "float rounding at 24 bits against 64-bit ranges: failure could hide at any size", "anchors": ["src/oracle.cpp: OracleProportion"]}
{"id": "C10", "title": "Oracle proportion is monotone and starts at min, ends at max", "statement": "A larger oracle never gives a smaller result; oracle 0 gives min; for ranges of up to 65536 values the largest oracle gives max.", "quantifier": "every pair of oracles and every size_t range", "why_tests_cant": "all pairs of oracles for all ranges", "anchors": ["src/oracle.cpp: OracleProportion"]}
{"id": "C11", "title": "Small oracle ranges are exactly proportional and fully covered", "statement": "For ranges of at most 256 values OracleProportion is exactly min + floor(o*count/65536), and every value of the range is produced by some oracle.", "quantifier": "every oracle, every range of up to 256 values anywhere in size_t", "why_tests_cant": "needs all ranges and all oracles", "anchors": ["src/oracle.cpp: OracleProportion"]}
{"id": "C12", "title": "Dictionary stamp always picks a word of the dictionary", "statement": "For every non-empty dictionary and every blob holding at least minSize() bytes StampDict::ExtractStr returns a word of the dictionary and consumes exactly minSize() bytes; with less data it throws OutOfData.", "quantifier": "every dictionary size, every index oracle value of 1, 2 or 8 bytes", "why_tests_cant": "double rounding of a 64-bit oracle against any dictionary size", "anchors": ["src/stamp_dict.cpp", "include/blobstamper/stamp_dict.h", "src/dict.cpp"]}
{"id": "C13", "title": "Every dictionary word can be produced", "statement": "Each word of a dictionary is produced by some value of its index oracle, whatever the size of the dictionary.", "quantifier": "every dictionary of up to 2^47 words (far beyond any memory), every index", "why_tests_cant": "double rounding could make a word unreachable for some size", "anchors": ["src/stamp_dict.cpp: StampDict::ExtractStr"]}
{"id": "C14", "title": "Dictionary index width is the smallest that fits", "statement": "minSize() of StampDict is the least of 1, 2, 4, 8 bytes that can index the dictionary.", "quantifier": "every dictionary size", "why_tests_cant": "boundary sizes 2^8, 2^16, 2^32 are too large to test", "anchors": ["src/stamp_dict.cpp: ChooseStampSize"]}
{"id": "C15", "title": "Text stamps give NUL-free text of the same length", "statement": "StampStringLatin1 and StampStringASCII consume the whole blob and return a string of the same length with no NUL byte; Latin1 changes only NUL bytes; ASCII output is 7-bit.", "quantifier": "every non-empty blob", "why_tests_cant": "every byte string", "anchors": ["src/stamp_text.cpp"]}
{"id": "C16", "title": "Galley vector, fixed-size stamp", "statement": "A vector galley over a stamp of fixed size n >= 1 cuts the blob into floor(Size/n) consecutive pieces of exactly n bytes, leaves fewer than n bytes, and throws OutOfData, with the blob unchanged, iff Size < n.", "quantifier": "every n >= 1 and every blob", "why_tests_cant": "all sizes", "anchors": ["src/galley.cpp: GalleyVectorBase::extract_internal"]}
{"id": "C17", "title": "Galley vector always terminates", "statement": "Extraction by a vector galley returns or throws for every stamp and every blob.", "quantifier": "every stamp size triple and every blob", "why_tests_cant": "divergence cannot be observed by a finite test and hides at one stamp size", "anchors": ["src/galley.cpp: GalleyVectorBase::extract_internal"]}
{"id": "C18", "title": "Galley vector, variated stamp", "statement": "Over a stamp with 0 <= min < max every piece is between min and max bytes long, each piece is preceded by one two-byte oracle, the pieces are consecutive, and the galley stops only when fewer than min+2 bytes are left.", "quantifier": "every min < max and every blob", "why_tests_cant": "all oracle sequences", "anchors": ["src/galley.cpp: GalleyVectorBase::extract_internal", "src/oracle.cpp"]}
{"id": "C19", "title": "Galley vector, unbounded stamp: pieces fit and use everything", "statement": "Over an unbounded stamp of minimal size m, when the blob holds at least the galley's minSize(): at least one piece, every piece at least m bytes, pieces consecutive and inside the blob, no OutOfData, and at most one byte is left over.", "quantifier": "every m, every blob, every oracle content", "why_tests_cant": "24-bit float rounding accumulates over an unbounded number of pieces; whether the sum can exceed the blob is an error-analysis question", "anchors": ["src/galley.cpp: GalleyVectorBase::extract_internal"]}
{"id": "C20", "title": "Galley vector minSize is enough", "statement": "If the blob holds at least minSize() bytes a vector galley returns at least one piece and each piece is at least the inner stamp's minSize(); with fewer bytes it throws OutOfData.", "quantifier": "every stamp kind and every blob", "why_tests_cant": "all combinations of sizes", "anchors": ["src/galley.cpp: GalleyVectorBase::minSize, extract_internal"]}
{"id": "C21", "title": "Galley set returns one piece per stamp, in order, within the blob", "statement": "When the blob holds at least minSize() bytes the set galley yields exactly one piece per stamp, in stamp order, consecutive after the oracles, with no OutOfData.", "quantifier": "every list of stamps, every blob, every oracle content", "why_tests_cant": "double rounding over any number of stamps; a zero denominator appears only for particular oracle contents", "anchors": ["src/galley.cpp: GalleySetBase::extract_internal"]}
{"id": "C22", "title": "Galley set gives every stamp its minimum", "statement": "Every piece handed to a stamp by a set galley is at least that stamp's minSize().", "quantifier": "every list of stamps, every blob, every oracle content", "why_tests_cant": "a negative rounding remainder appears only for particular combinations of oracles and sizes", "anchors": ["src/galley.cpp: GalleySetBase::extract_internal"]}
{"id": "C23", "title": "Galley set respects variated maxima up to one byte", "statement": "A piece handed to a variated stamp is never more than one byte longer than its maxSize(), and a fixed stamp gets exactly its size.", "quantifier": "every list of stamps, every blob, every oracle content", "why_tests_cant": "the code comments only hope for it", "anchors": ["src/galley.cpp: GalleySetBase::extract_internal"]}
{"id": "C24", "title": "Galley set with an unbounded stamp consumes everything; without one it stays within maxSize", "statement": "With at least one unbounded stamp no byte is left in the blob; without one the number of bytes consumed lies between minSize() and maxSize().", "quantifier": "every list of stamps, every blob, every oracle content", "why_tests_cant": "needs exactness of sums of rounded doubles over any number of stamps", "anchors": ["src/galley.cpp: GalleySetBase::extract_internal, minSize, maxSize"]}
{"id": "C25", "title": "Galley set fails cleanly", "statement": "If the blob holds fewer than minSize() bytes the set galley throws OutOfData and the blob is unchanged.", "quantifier": "every list of stamps and every blob", "why_tests_cant": "all lists and sizes; the two size computations are separate code", "anchors": ["src/galley.cpp: GalleySetBase::extract_internal, minSize"]}
{"id": "C26", "title": "Enumerator output format", "statement": "StampStrEnumerator::ExtractStr returns left bracket, the element strings joined by the separator, right bracket, with exactly one separator between any two neighbours.", "quantifier": "every list of element strings, separator and brackets", "why_tests_cant": "all lists; the separator logic depends on the accumulated text, not on the position", "anchors": ["src/stamp_enumerator.cpp", "include/blobstamper/stamp_text.h: StampText::ExtractStr"]}
{"id": "C27", "title": "Math operator stamps build balanced text", "statement": "Unary and binary operator stamps return op(arg) and (left op right) where the operands are the operand stamps' outputs; brackets stay balanced if the operands' are.", "quantifier": "every operand stamp and blob", "why_tests_cant": "all nestings", "anchors": ["src/stamp_math_op.cpp", "include/blobstamper/stamp_math_op.h"]}
{"id": "C28", "title": "Lottery sizes after any history of appends", "statement": "After any history of construction and Append calls minSize() is the smallest appended minSize plus the oracle size, and maxSize() is -1 iff some appended stamp is unbounded, otherwise the largest appended maxSize plus the oracle size.", "quantifier": "every sequence of appended stamps", "why_tests_cant": "order-dependent state", "anchors": ["include/blobstamper/stamp_lottery.h: init_stored_min, init_stored_max, Append, minSize, maxSize"]}
{"id": "C29", "title": "Lottery picks a stamp that fits", "statement": "If the blob holds at least minSize() bytes the lottery hands the blob to one of its stamps whose minSize() fits in what is left, indexes inside its list for every oracle value, and does not throw OutOfData itself.", "quantifier": "every list of stamps, every blob, every oracle value of 1, 2, 4 or 8 bytes", "why_tests_cant": "64-bit oracle through double", "anchors": ["include/blobstamper/stamp_lottery.h: StampLottery::ExtractStr"]}
{"id": "C30", "title": "Every fitting lottery stamp can win", "statement": "Each stamp the lottery may choose from is chosen for some value of its oracle, whatever way the lottery was put together.", "quantifier": "every history of construction and appends of fewer than 2^30 stamps, every candidate, every rest of data", "why_tests_cant": "double rounding could starve one stamp", "anchors": ["include/blobstamper/stamp_lottery.h: StampLottery::ExtractStr"]}
{"id": "C31", "title": "Pool picker picks a stamp that fits and never aborts", "statement": "After its oracle, a pool picker hands the blob to a pool stamp whose minSize() fits; if some fitting stamp can take all remaining data, such a stamp is picked; with data at least minSize() it neither throws OutOfData itself nor aborts; with less it throws OutOfData.", "quantifier": "every pool, every blob, every oracle", "why_tests_cant": "all pools and oracles; abort() is reachable in the code text", "anchors": ["src/stamp_json.cpp: PoolPickerStamp::ExtractStr, minSize"]}
{"id": "C32", "title": "Size queries leave no trace", "statement": "Calling minSize() or maxSize() on any stamp, however it is wired into cycles, and any extraction that returns or throws OutOfData, leaves all recursion flags as they were, so later queries and extractions give the same results.", "quantifier": "every stamp graph, cyclic or not, every history of queries and extractions", "why_tests_cant": "recursion guards are mutable state; all graphs and histories", "anchors": ["src/stamp_json.cpp: PoolPickerStamp::minSize, maxSize, isRecursive"]}
{"id": "C33", "title": "Size queries terminate on cyclic grammars", "statement": "minSize() and maxSize() return for every stamp graph whose cycles all pass through pool pickers or lotteries.", "quantifier": "every such graph", "why_tests_cant": "infinite recursion on some graph shape", "anchors": ["src/stamp_json.cpp: PoolPickerStamp::minSize, maxSize", "include/blobstamper/stamp_lottery.h"]}
{"id": "C34", "title": "Picker minSize is the least derivation size", "statement": "For a recursive pool-picker grammar minSize() equals the least number of bytes along any derivation of the grammar.", "quantifier": "every grammar of single-child stamps and pickers, with cycles", "why_tests_cant": "cutting a cycle with a large sentinel must not change the minimum for any graph; sentinels can overflow when summed", "anchors": ["src/stamp_json.cpp: PoolPickerStamp::minSize", "src/galley.cpp: minSize"]}
{"id": "C35", "title": "isRecursive recognises recursion", "statement": "isRecursive() returns true for a stamp that can reach itself.", "quantifier": "every cyclic stamp graph", "why_tests_cant": "all graph shapes", "anchors": ["src/stamp_json.cpp: PoolPickerStamp::isRecursive", "include/blobstamper/stamp.h"]}
{"id": "C36", "title": "Generation terminates", "statement": "ExtractStr returns or throws for every stamp graph whose cycles pass through pickers or lotteries, and every blob: no infinite recursion.", "quantifier": "every such graph, every blob", "why_tests_cant": "unbounded recursion depth on unknown data", "anchors": ["src/stamp_json.cpp", "src/galley.cpp", "include/blobstamper/stamp_lottery.h"]}
{"id": "C37", "title": "Extraction only consumes a prefix", "statement": "Whatever the stamp and outcome, after ExtractStr the blob's remaining bytes are a suffix of what it held before; no byte outside the blob is read.", "quantifier": "every stamp graph, every blob, both outcomes", "why_tests_cant": "all graphs and inputs; memory safety is not observable from outputs", "anchors": ["src/blob.cpp", "src/galley.cpp", "src/stamp_json.cpp", "include/blobstamper/*.h"]}
{"id": "C38", "title": "Output depends only on the remaining bytes", "statement": "Two blobs holding the same remaining bytes give the same result and the same remaining bytes, however each came to be (offset in a larger buffer, chopped from another blob).", "quantifier": "every stamp graph, every pair of blobs", "why_tests_cant": "all layouts of blobs in memory", "anchors": ["src/blob.cpp", "all extract methods"]}
{"id": "C39", "title": "Enough data means success", "statement": "For every grammar built from arithmetic, dictionary and text stamps with enumerators, text joins, unary operators, pickers and lotteries, ExtractStr on a blob of at least minSize() bytes never throws OutOfData.", "quantifier": "every such grammar, recursive or not, every blob", "why_tests_cant": "composition of float-based splitting at unbounded depth", "anchors": ["src/galley.cpp", "src/stamp_json.cpp", "include/blobstamper/stamp_lottery.h"]}
{"id": "C40", "title": "Consumption lies between minSize and maxSize", "statement": "A successful ExtractStr on a blob with at least minSize() bytes consumes at least minSize() bytes, and at most maxSize() when that is not -1.", "quantifier": "every stamp of the library, every blob", "why_tests_cant": "all inputs", "anchors": ["README.md: Stamp Sizes", "include/blobstamper/stamp_json.h: StampJSONString"]}
{"id": "C41", "title": "StampJSON succeeds on every sufficiently large blob", "statement": "StampJSON::ExtractStr returns a string for every blob of at least 10 bytes and throws OutOfData for every smaller one.", "quantifier": "every blob", "why_tests_cant": "every input length and content, unbounded nesting", "anchors": ["src/stamp_json.cpp", "include/blobstamper/stamp_json.h"]}
{"id": "C42", "title": "StampJSON output is JSON", "statement": "The string StampJSON::ExtractStr returns is a valid JSON text.", "quantifier": "every blob", "why_tests_cant": "every input; unbounded nesting; non-finite doubles", "anchors": ["src/stamp_json.cpp", "src/stamp_enumerator.cpp", "include/blobstamper/helpers.h", "src/dict.cpp"]}
{"id": "C43", "title": "Load then Unload equals Extract", "statement": "Load(blob) followed by one UnloadStr() gives the string ExtractStr(blob) would have given for arithmetic, dictionary and text stamps and takes the same bytes from the blob; Load throws OutOfData, leaving the blob unchanged, iff the blob holds fewer than minSize() bytes.", "quantifier": "every such stamp and blob", "why_tests_cant": "all inputs", "anchors": ["src/stamp.cpp: StampBase::Load", "include/blobstamper/stamp.h: UnloadStr"]}
{"id": "C44", "title": "LoadAll loads every stamp with its own piece", "statement": "GalleySetBase::LoadAll gives stamp i the i-th piece of the split and fails cleanly when data is short.", "quantifier": "every list of distinct stamps and every blob", "why_tests_cant": "all lists", "anchors": ["src/galley.cpp: GalleySetBase::LoadAll"]}
{"id": "C45", "title": "Hex dump is faithful and stays in its buffer", "statement": "Blob::Dump prints one line per 16 bytes in which the hex digits and the printable column show exactly the remaining bytes in order, never writing outside its 100-byte line buffer.", "quantifier": "every blob below 2^31 bytes", "why_tests_cant": "buffer overruns and row-boundary errors depend on length modulo 4 and 16", "anchors": ["src/helpers.cpp: hexdump", "src/blob.cpp: Blob::Dump"]}
{"id": "C46", "title": "Owned buffers are freed exactly once", "statement": "For every sequence of VLATO_ptr and sized_ptr constructions, conversions and destructions each malloc'ed buffer is freed exactly once.", "quantifier": "every sequence of operations", "why_tests_cant": "history property of the heap", "anchors": ["include/blobstamper/helpers.h: sized_ptr, VLATO_ptr"]}
{"id": "C47", "title": "Owned buffers have the size they report", "statement": "After every sequence of operations on VLATO_ptr and sized_ptr objects, size() of an object equals the size of the buffer it points to, and a VLATO_ptr buffer has room for length() elements after offset().", "quantifier": "every sequence of operations, every offset, length and element size", "why_tests_cant": "history property of the heap; wrapping needs lengths near 2^64", "anchors": ["include/blobstamper/helpers.h: sized_ptr, VLATO_ptr"]}
{"id": "C48", "title": "Binary galleys apply each stamp to its own piece", "statement": "ExtractBinVector and ExtractBinSet return what ExtractBin gives on each piece of the split taken by itself, in order, and throw OutOfData at the first piece whose extraction throws or when the split throws.", "quantifier": "every stamp, every set of stamps, every blob", "why_tests_cant": "unbounded number of pieces and arbitrary user stamps", "anchors": ["src/galley.cpp: GalleyVectorBin::ExtractBinVector", "src/galley.cpp: GalleySetBin::ExtractBinSet"]}
{"id": "C49", "title": "Vectors of arithmetic values", "statement": "A vector galley over StampArithm<T> throws without consuming when the blob is shorter than sizeof(T); otherwise the extracted byte vectors are the consecutive sizeof(T)-byte slices of the blob, as many as fit, and ExtractValuesVector returns the values they represent.", "quantifier": "every arithmetic type, every blob", "why_tests_cant": "unbounded blobs; the loop counter overflows only beyond 2^31 elements", "anchors": ["include/blobstamper/galley.h: GalleyVectorV::ExtractValuesVector", "src/galley.cpp: GalleyVectorBin::ExtractBinVector"]}
{"id": "C50", "title": "Sets of arithmetic stamps", "statement": "ExtractBinSet over arithmetic stamps throws without consuming when the blob is shorter than the sum of their sizes; otherwise it returns consecutive slices of the blob of the sizes of the stamps, in order.", "quantifier": "every list of arithmetic types whose sizes add up to an int, every blob", "why_tests_cant": "unbounded lists and blobs", "anchors": ["src/galley.cpp: GalleySetBin::ExtractBinSet", "src/galley.cpp: GalleySetBase::extract_internal"]}
{"id": "C51", "title": "Shape of floating-point text", "statement": "The text of a finite float or double is a minus sign for a set sign bit, then 0 for zero, plain notation without superfluous zeros for magnitudes from 1e-4 on, and scientific notation with one nonzero leading digit and an exponent of at least two digits below; infinities print as inf and NaNs as nan, with the sign.", "quantifier": "every bit pattern of float and double", "why_tests_cant": "2^64 bit patterns", "anchors": ["include/blobstamper/helpers.h: to_string_precise", "include/blobstamper/stamp_arithm.h: StampArithm::ExtractStr"]}
{"id": "C52", "title": "long double stamps", "statement": "StampArithm<long double> throws without consuming on fewer than sizeof bytes, otherwise takes exactly that many and holds the value stored there; its text denotes that value.", "quantifier": "every blob", "why_tests_cant": "2^80 values; a wrong printf conversion often prints something plausible", "anchors": ["include/blobstamper/helpers.h: to_string_precise(long double)", "include/blobstamper/stamp_arithm.h: StampArithm"]}
{"id": "C53", "title": "Which stamp a picker takes", "statement": "A PoolPickerStamp takes from its eligible stamps, in pool order, the one with number floor(oracle*count/65536), where eligible are the stamps that fit what follows the oracle and can take all of it or, if there are none, those that fit. For StampJSON: 10 to 15 bytes give an integer, float or string in equal shares, 16 to 23 bytes an array, and from 24 bytes on an array or a hash in equal shares, visible in the first character of the text.", "quantifier": "every pool of at most 256 stamps, every oracle value, every blob size", "why_tests_cant": "65536 oracle values times unbounded blob sizes; share of kinds is a counting statement", "anchors": ["src/stamp_json.cpp: PoolPickerStamp::ExtractStr", "src/stamp_json.cpp: StampJSON::StampJSON"]}
{"id": "C54", "title": "Length of JSON text", "statement": "The text StampJSON produces from a blob of n bytes has at most 106*n - 2 characters.", "quantifier": "every blob StampJSON accepts", "why_tests_cant": "unbounded blobs and nesting; the worst case is a rare bit pattern of a double", "anchors": ["src/stamp_json.cpp: StampJSON", "include/blobstamper/helpers.h: to_string_precise(double)"]}
{"id": "C55", "title": "Stamps depend only on their parts", "statement": "Sizes, recursion test and extraction of a stamp depend only on the objects reachable from it through its members.", "quantifier": "every two object graphs that agree below the stamp, every blob", "why_tests_cant": "quantifies over everything else in the program", "anchors": ["include/blobstamper/stamp.h: StampBase", "src/galley.cpp", "src/stamp_json.cpp"]}
{"id": "C56", "title": "Copies of StampJSON", "statement": "A copy of a StampJSON behaves as the original on every blob, also after the original is destroyed.", "quantifier": "every blob", "why_tests_cant": "use after destruction often appears to work", "anchors": ["include/blobstamper/stamp_json.h: StampJSON", "src/stamp_json.cpp: StampJSON::StampJSON"]}
{"id": "C57", "title": "Stamps keep their parts alive", "statement": "A stamp works as long as the program keeps the stamp itself, whatever else it lets go.", "quantifier": "every object graph, every set of variables kept, every blob", "why_tests_cant": "quantifies over object graphs and lifetimes", "anchors": ["include/blobstamper/stamp_json.h: PoolPickerStamp::add_weak", "include/blobstamper/galley.h"]}
{"id": "C58", "title": "The built-in dictionary", "statement": "DictLCAlphaSmall has 254 different non-empty words of lower-case letters; byte x picks word x-1, so only the first and the last word are picked by two byte values.", "quantifier": "every word, every byte value, every blob", "why_tests_cant": "the share of each word is a counting statement over all byte values", "anchors": ["src/dict.cpp: DictLCAlphaSmall", "src/stamp_dict.cpp: StampDict::ExtractStr"]}
{"id": "C59", "title": "Short data is refused", "statement": "ExtractStr on a blob with fewer bytes than minSize() throws OutOfData, for every stamp but enumerators over stamps of varying size and StampJSONString.", "quantifier": "every stamp composed of the others in any way, every blob shorter than minSize()", "why_tests_cant": "unbounded grammars, recursive ones included; short blobs of every length and content", "anchors": ["include/blobstamper/stamp.h: StampBase::minSize", "src/galley.cpp: GalleySetBase::extract_internal", "include/blobstamper/stamp_lottery.h: StampLottery::ExtractStr", "src/stamp_json.cpp: PoolPickerStamp::ExtractStr"]}
{"id": "C60", "title": "A refused extraction gives its bytes back", "statement": "When ExtractStr throws OutOfData the blob holds the bytes it held before the call.", "quantifier": "every stamp, every blob", "why_tests_cant": "needs every way of running out of data at every depth", "anchors": ["include/blobstamper/stamp.h: StampBaseStr::ExtractStr", "src/blob.cpp: Blob::Chop", "README.md: ComplexIntStamp"]}
{"id": "C61", "title": "The language of StampJSON", "statement": "Whatever StampJSON returns on a blob below 2 GiB spells a JSON value whose integers are the 64-bit ones, whose doubles are spelt exactly, whose strings and member names are words of the dictionary, and which fits the blob: 10 bytes for a scalar, 4 for an array or object, 2 more for each element and at least 20 for each member. No array or object has more than 65535 elements, and up to 768 KiB (exactly 786423 bytes) none is empty; from 16 bytes on the value is an array or an object.", "quantifier": "every blob below 2^31 bytes, every nesting", "why_tests_cant": "says what can never come out, over all blobs; a test sees one output at a time", "anchors": ["src/stamp_json.cpp: PoolPickerStamp::ExtractStr", "include/blobstamper/stamp_json.h: StampJSON", "src/galley.cpp: GalleyVectorBase::extract_internal_unbounded"]}
{"id": "C62", "title": "Every JSON value can be generated", "statement": "For every JSON value built of 64-bit integers, doubles, dictionary words, arrays and objects there is a blob from which StampJSON makes it.", "quantifier": "every such value, unbounded width and depth", "why_tests_cant": "needs a blob for each of infinitely many values; that a value is never generated no test can show", "anchors": ["src/stamp_json.cpp: PoolPickerStamp::ExtractStr", "src/stamp_json.cpp: StampJSONHashEl::ExtractStr", "src/galley.cpp: GalleyVectorBase::extract_internal_unbounded"]}
{"id": "C63", "title": "Sizes of composite stamps", "statement": "minSize() and maxSize() of a stamp follow from those of its parts: an arithmetic stamp reports the size of its type; a list one piece, plus 2 bytes if the stamp is variated and 4 if it is unbounded, and no limit; a set the sum of the minima, plus 2 bytes for each variated stamp, for each unbounded stamp if there are several, and once more if there are both kinds, and no limit if a stamp is unbounded, else the sum of the maxima plus 2 bytes for each variated stamp; a sequence of bounded stamps the sums, a member of a JSON object the sum of the minima and no limit; a unary operator its operand's minimum and no limit; a pool picker that is not under way the least minimum and the greatest maximum of its stamps, each plus 2 bytes, and no limit if one of them has none.", "quantifier": "every list of stamps, every sizes whose sums are ints, any nesting", "why_tests_cant": "the cases multiply with the number and kinds of stamps; every other claim about galleys is relative to these numbers", "anchors": ["src/galley.cpp: GalleyVectorBase::minSize", "src/galley.cpp: GalleySetBase::minSize", "src/galley.cpp: GalleySetBase::maxSize", "include/blobstamper/stamp_math_op.h: StampMathUnaryOp", "include/blobstamper/stamp_json.h: StampJSONHashEl", "src/stamp_json.cpp: PoolPickerStamp::minSize", "src/stamp_json.cpp: PoolPickerStamp::maxSize"]}
{"id": "C64", "title": "Order of evaluation does not matter", "statement": "C++ leaves open which operand of a binary operator is extracted first. Whatever the order, and even if it changes from one use to the next, the text and the bytes used are the same.", "quantifier": "every graph of stamps, every blob, every choice of order", "why_tests_cant": "a test runs with the order one compiler has chosen; that orders agree is a claim about all of them, and about mutable recursion flags shared by the operands", "anchors": ["src/stamp_math_op.cpp: StampMathBinaryOp::ExtractStr", "src/galley.cpp: GalleySetBase::extract_internal"]}
{"id": "C65", "title": "Which characters a text can contain", "statement": "A text contains only characters that the stamps it is made of may add: those of numbers, of the words, of operator names and separators. Without such a source of NUL no text contains one; JSON text is printable ASCII.", "quantifier": "every graph of stamps, every blob, any depth", "why_tests_cant": "a stray character may appear for one value in a deep position only, and NUL hides from tests that compare C strings", "anchors": ["include/blobstamper/helpers.h: std::to_string overloads", "src/stamp_text.cpp: StampTextSimple::ExtractStr", "src/stamp_json.cpp: StampJSONString::ExtractStr"]}
{"id": "C66", "title": "pulp2json prints one line of JSON for every file", "statement": "Given a readable file the demo program prints exactly one line, the JSON text of the file's bytes, and exits with status 0; without an argument or a readable file it exits with status 1.", "quantifier": "every file of any size, also one that changes its size while being read", "why_tests_cant": "the failing sizes (0 to 9 bytes, and some files of every size from 393232 bytes on) are easily missed", "anchors": ["console_demo/pulp2json.cpp: main", "src/stamp_json.cpp: StampJSON"]}
{"id": "C67", "title": "A stamp made of stamps succeeds exactly when its parts do", "statement": "A list stamp, a stamp over a set of stamps, a stamp that applies others in turn, or a unary operator gives a text exactly when the blob can be divided as its sizes require and every part gives its own text. Its text is the join of theirs. It throws OutOfData exactly when the division fails or some part throws.", "quantifier": "every graph of stamps, every blob, any depth", "why_tests_cant": "it is an equivalence over all stamps that can be put together, including ones not written yet; a test sees single combinations", "anchors": ["src/galley.cpp: GalleyVectorBase::extract_internal, GalleySetBase::extract_internal", "include/blobstamper/galley.h: GalleyVectorStr, GalleySetStr", "src/stamp_math_op.cpp: StampMathUnaryOp::ExtractStr"]}
{"id": "C68", "title": "Stamps for structures read the members in order and write texts that can be read back", "statement": "A stamp for a structure of arithmetic members, written as README and the examples show, has the sum of the members' sizes as both its sizes, reads each member from its own bytes, and throws OutOfData exactly when bytes are missing. A list of such structures of integers (no char members) covers the blob up to less than one structure. If brackets and separators have no digit or minus sign, equal texts come from equal bytes.", "quantifier": "every list of member types, every blob, all brackets and separators", "why_tests_cant": "tests use one structure and one blob; injectivity of the text is a claim about all pairs of blobs", "anchors": ["examples/example03.cpp to example08.cpp", "README.md: Stamps for structures and lists", "include/blobstamper/galley.h: GalleyVectorV"]}
{"id": "C69", "title": "Every division of the data among the stamps of a set can occur", "statement": "For a set galley of fixed and unbounded stamps there is, for every choice of pieces that meets the sizes of the stamps, a blob that the galley cuts into exactly these pieces.", "quantifier": "every set of stamps, every list of pieces that suits it", "why_tests_cant": "a test tries single blobs; that no division is left out is a claim about all divisions, and the two-byte weights make some impossible for long blobs only", "anchors": ["src/galley.cpp: GalleySetBase::extract_internal"]}
{"id": "C70", "title": "The expression stamp of exampleZZ always writes one well-formed expression that can be read back", "statement": "The recursive lottery of examples/exampleZZ.cpp over numbers, words and binary operators reports a minimum of two bytes and tells Append the sizes the operators report. On every blob from two bytes to 2147483646 bytes it returns the text of a fully bracketed expression over these operators and words, of 7 to 13 bytes per leaf; on shorter blobs it throws OutOfData; it never returns anything else. If no operator contains a space, different expressions have different texts.", "quantifier": "every list of 1 to 252 operators, every blob", "why_tests_cant": "termination and success of an unbounded recursion for all blobs, and injectivity over all pairs of expressions, are not finite checks", "anchors": ["examples/exampleZZ.cpp", "src/stamp_math_op.cpp: StampMathBinaryOp::ExtractStr", "include/blobstamper/stamp_lottery.h: StampLottery4Recursion", "src/galley.cpp: GalleySetBase::extract_internal"]}
{"id": "C71", "title": "The expression stamp can write every expression", "statement": "Every expression over the operators and words is the text the stamp of examples/exampleZZ.cpp returns for some blob.", "quantifier": "every list of 1 to 252 operators, every expression", "why_tests_cant": "there are infinitely many expressions; which cannot be drawn shows only far beyond the sizes tests use", "anchors": ["examples/exampleZZ.cpp", "src/galley.cpp: GalleySetBase::extract_internal"]}
{"id": "C72", "title": "Choices are even", "statement": "Over all values of the bytes that decide, a dictionary gives each of its words, and a lottery and a pool picker take each of their candidates, equally often: the number of values that lead to one of them differs from the even share by at most one for oracles of one or two bytes, by at most two for four bytes, and by at most 32769 for eight bytes (where a share is larger than 2^16).", "quantifier": "every dictionary of at most 2^47 different words, every lottery of at most 2^47 stamps, every pool of at most 256 stamps, any bytes following the oracle", "why_tests_cant": "counting over all 2^16, 2^32 or 2^64 oracle values for every number of candidates; the index comes from a floating-point product whose rounding could favour some candidate", "anchors": ["src/stamp_dict.cpp: StampDict::ExtractStr", "include/blobstamper/stamp_lottery.h: StampLottery::ExtractStr", "src/stamp_json.cpp: PoolPickerStamp::ExtractStr", "src/oracle.cpp: OracleProportion"]}
{"id": "C73", "title": "How deep the calls go", "statement": "For every grammar whose extractions end there is a constant K such that on a blob of n bytes no more than K(n+1) calls of stamps are inside one another; for StampJSON 4n+13 levels are enough. The depth really grows with the data: a blob of 6d+10 zero bytes makes StampJSON write d arrays inside one another, with at least 2d calls inside one another, so that no fixed stack is enough.", "quantifier": "every grammar in which cycles pass through pickers or lotteries and no list is made of stamps that take no data, every blob; d up to 2796201", "why_tests_cant": "a bound on the depth for all blobs is not a finite check, and a test with small blobs never meets the stack limit", "anchors": ["src/stamp_json.cpp: PoolPickerStamp::ExtractStr", "src/stamp_enumerator.cpp: StampStrEnumerator::ExtractStr", "src/galley.cpp: GalleyVectorBase::extract_internal", "include/blobstamper/stamp_lottery.h: StampLottery::ExtractStr"]}
{"id": "C74", "title": "Every text is put together from the texts of single stamps, each made from bytes of its own", "statement": "Over any grammar, a text that a stamp returns is put together from texts of stamps that are not made of other stamps, in the way the grammar says: a list or set joins the texts of its stamps in order, an operator wraps one, a lottery or picker passes on the text of one of its stamps. Each of the single texts is made by its stamp from exactly the bytes it took, and these stretches of bytes do not overlap and lie in the data in the order of the texts. Hence a property of texts that single stamps have and that every way of putting texts together preserves holds of every text of the grammar.", "quantifier": "every grammar, cyclic or not, every stamp of it, every blob", "why_tests_cant": "a grammar has endlessly many texts, and a test sees only the text, not which bytes each part of it was made from", "anchors": ["src/galley.cpp: GalleyVectorStr::ExtractStrVector", "src/galley.cpp: GalleySetStr::ExtractStrSet", "src/stamp_json.cpp: PoolPickerStamp::ExtractStr", "include/blobstamper/stamp_lottery.h: StampLottery::ExtractStr", "src/stamp_math_op.cpp"]}
{"id": "C75", "title": "fit_sizes shares a size out exactly", "statement": "fit_sizes returns as many sizes as there are seeds, they add up to the size to be shared out exactly (so that its assert holds), and for every j the first j sizes together differ from the share due to the first j seeds by at most 1/2 + 1/500, in spite of floating-point arithmetic. A seed of 0 between others can make it convert -1 to an unsigned number, which is undefined, and so do seeds that are all 0.", "quantifier": "up to 1000 seeds below 2^31, not all 0, of which only the first and the last may be 0; every size below 2^31", "why_tests_cant": "the carried remainder depends on all seeds before and on rounding; the space of seeds is far beyond enumeration", "anchors": ["t/320-galley-recursion-experiments.cpp: fit_sizes"]}
{"id": "C76", "title": "VariantPicker and WeightedRefPicker cut the range of the seed evenly", "statement": "If all variants of all objects are numbered in order, VariantPicker marks the variant whose part of the range from 0 to 255, cut evenly, contains the seed: rounding errors that add up over the loop never show but on a boundary, and the program is never stopped. With up to 254 variants every variant is marked for some seed. The object returned is the one marked if the last object has variants; with a disabled last object this fails. WeightedRefPicker::pick cuts the range in proportion to the weights in the same way.", "quantifier": "every list of numbers of variants adding up to 1..1,000,000, every list of positive weights adding up to at most 1,000,000, every seed", "why_tests_cant": "the accumulated rounding error depends on the number of variants; a test tries a few lists", "anchors": ["t/320-galley-recursion-experiments.cpp: VariantPicker", "t/320-galley-recursion-experiments.cpp: WeightedRefPicker::pick"]}
{"id": "C77", "title": "The recursion experiment writes well-formed expressions", "statement": "GalleySimpleRecusion::do_recursion ends on every blob of less than 2^31 bytes. It returns \"0\" on an empty blob, \"Q\" on one byte, and otherwise the text of a fully bracketed expression of numbers below 256 and the five operators, with one number for every 5 to 9 bytes of the blob plus three; it never returns \"Z\", stops the program or has undefined behaviour. Every such expression with up to 12,800 numbers is written from some blob of five bytes for every number, less three.", "quantifier": "every blob of less than 2^31 bytes; every expression with up to 12,800 numbers", "why_tests_cant": "the recursion divides the data at places the data itself names, so blobs of all sizes have to be considered", "anchors": ["t/320-galley-recursion-experiments.cpp: TestRNode1::do_recursion", "t/320-galley-recursion-experiments.cpp: GalleySimpleRecusion::do_recursion"]}
{"id": "C78", "title": "The stamps of the library's own tests", "statement": "StampTwoChars and StampSeveralChars throw and take nothing on fewer than two bytes; otherwise they take as many bytes as they may (2, or up to 8) and return them up to the first NUL. StampTwoCharsList throws and takes nothing on fewer than two bytes; otherwise it cuts the blob into pairs, leaves an odd byte, and returns in brackets the texts of the pairs with commas between, where empty texts before the first that is not empty leave no trace.", "quantifier": "every blob (for the list, of less than 2^32 bytes)", "why_tests_cant": "the tests use these stamps on a few short samples without NULs", "anchors": ["t/test-chars-stamps.h: StampTwoChars::ExtractStr", "t/test-chars-stamps.h: StampSeveralChars::ExtractStr", "t/test-chars-stamps.h: StampTwoCharsList::ExtractStr"]}
{"id": "C79", "title": "Every division of the data among the elements of a vector can occur", "statement": "For a vector galley over an unbounded stamp there is, for every choice of pieces of at least the stamp's minimum, a blob that the galley cuts into these pieces, but for one byte at the end of the last.", "quantifier": "every list of pieces that suits the stamp, every minimum", "why_tests_cant": "a test tries single blobs; that no division is left out is a claim about all divisions, and the two-byte weights and float arithmetic make some impossible for long blobs only", "anchors": ["src/galley.cpp: GalleyVectorBase::extract_internal_unbounded"]}
{"id": "C80", "title": "How deep the text of StampJSON nests", "statement": "Whenever StampJSON returns a text, its brackets are balanced outside of strings and nest at most (size + 2) / 6 deep; for blobs of up to 786423 bytes at most (size - 10) / 6 deep, and this depth is reached for every size.", "quantifier": "every blob of fewer than 2^31 bytes", "why_tests_cant": "the depth depends on the oracles at every level; that no blob nests deeper is a claim about all blobs, and the deepest text needs one particular blob", "anchors": ["src/stamp_json.cpp: PoolPickerStamp::ExtractStr", "src/galley.cpp: GalleyVectorBase::extract_internal_unbounded"]}
{"id": "C81", "title": "Unbounded stamps use the blob up", "statement": "Whenever a stamp whose maxSize is -1 returns a text, no byte of the blob is left.", "quantifier": "every unbounded stamp, every blob", "why_tests_cant": "README.md says that stamps are greedy; what is left depends on the parts of the stamp, the oracles and rounding, and tests look at the text rather than at what is left", "anchors": ["README.md: Stamp sizes", "src/galley.cpp: GalleySetBase::extract_internal", "include/blobstamper/stamp_lottery.h: StampLottery::ExtractStr"]}
{"id": "C82", "title": "Data are shared out in proportion to the oracles", "statement": "Beyond the minima, a list over an unbounded stamp shares the data out in the ratio of the oracles of its parts. A set gives its variated stamps what their oracles ask for, limited by the part that the first oracle leaves them, and its unbounded stamps all the rest, and shares both out in the ratio of the oracles. Every beginning of the parts gets what its oracles ask for, up to rounding to whole bytes.", "quantifier": "every list and set, every blob", "why_tests_cant": "the sizes come out of rounded floating-point arithmetic with a remainder carried from part to part; that errors never add up to more than a byte is a claim about all oracles and all sizes", "anchors": ["README.md: How does Galley Vector works for Unbounded Size Stamps", "README.md: How does Galley Set works", "src/galley.cpp: GalleyVectorBase::extract_internal", "src/galley.cpp: GalleySetBase::extract_internal"]}
{"id": "C83", "title": "Stamps of fixed size", "statement": "A stamp whose minimum and maximum sizes are the same number n takes exactly n bytes from every blob that has them, always returns a text, and the text depends on these bytes alone; with fewer bytes it throws OutOfData. Structures, sets and choices made of such stamps are of fixed size again, operators over them take exactly what their operands take, and a list over one turns every n bytes into one element and leaves fewer than n.", "quantifier": "every stamp built of fixed-size stamps, to any depth; every blob", "why_tests_cant": "the claim ties what a stamp declares to what it does on every blob, for an unbounded family of compositions", "anchors": ["README.md: Fixed Size Stamps", "include/blobstamper/stamp.h: isFixedSize", "src/galley.cpp: GalleyVectorBase::extract_internal", "src/galley.cpp: GalleySetBase::extract_internal", "include/blobstamper/stamp_lottery.h: Append"]}
{"id": "C84", "title": "Operators with two operands: enough data means success", "statement": "In every grammar, recursive or not, that uses operators with two operands or sets besides all other kinds of stamps, ExtractStr on a blob of at least minSize() bytes returns a string, provided every set has stamps of fixed size and at most two unbounded ones. A set of any stamps that need no more than they ask for returns a string whenever no stamp reads the oracle 0; a set with variated stamps never does when they all read 0.", "quantifier": "every grammar, every blob", "why_tests_cant": "depends on floating-point divisions of every blob at unbounded depth of recursion", "anchors": ["src/galley.cpp: GalleySetBase::extract_internal", "src/stamp_math_op.cpp: StampMathBinaryOp::ExtractStr", "include/blobstamper/stamp_lottery.h", "src/stamp_json.cpp: PoolPickerStamp::ExtractStr"]}
{"id": "C85", "title": "Asking about recursion changes nothing", "statement": "After any history of calls of isRecursive(), minSize(), maxSize() and extractions, every later size query, extraction and isRecursive() gives what it would have given on the freshly built stamps.", "quantifier": "every grammar, every history of calls, every blob", "why_tests_cant": "isRecursive() stores what it finds in the stamps; whether that can ever show depends on all wirings and all orders of calls", "anchors": ["src/stamp_json.cpp: PoolPickerStamp::isRecursive", "src/stamp_json.cpp: PoolPickerStamp::maxSize", "include/blobstamper/stamp.h: StampBase::isRecursive, StampRecursive"]}
{"id": "C86", "title": "A size query costs no more than the stamps there are", "statement": "minSize() and maxSize() of a stamp make a number of calls of minSize() and maxSize() that is at most proportional to the number of stamps it is built of.", "quantifier": "every grammar of any number of stamps, every nesting, every wiring of pickers", "why_tests_cant": "the tests build grammars of a few stamps; the number of calls doubles with every list and grows with the factorial of the number of pickers, which shows only in larger grammars", "anchors": ["src/galley.cpp: GalleyVectorBase::minSize, GalleySetBase::minSize, GalleySetBase::maxSize", "src/stamp_json.cpp: PoolPickerStamp::minSize, PoolPickerStamp::maxSize", "include/blobstamper/stamp.h: isFixedSize, isVariated, isUnbounded"]}
{"id": "C87", "title": "The work of an extraction is proportional to its data", "statement": "In every grammar of finitely many stamps in which every cycle passes through a pool picker or a lottery, an extraction, whatever its outcome, makes a number of calls of ExtractStr that is at most a constant of the grammar times the size of the blob plus one. For StampJSON it is at most the number of bytes plus one.", "quantifier": "every such grammar, every stamp in it, every blob of any size, every state of the recursion flags", "why_tests_cant": "a blow-up of the work (time and stack of the fuzz target) would need particular wirings and large blobs; the tests run a few small ones and count no calls", "anchors": ["src/stamp_json.cpp: PoolPickerStamp::ExtractStr, StampJSONHashEl::ExtractStr", "include/blobstamper/stamp_lottery.h: StampLottery::ExtractStr", "src/galley.cpp: GalleyVectorStr::ExtractStrVector, GalleySetStr::ExtractStrSet, extract_internal"]}
{"id": "C88", "title": "The length of any text is proportional to the data", "statement": "If dictionaries, separators, brackets and operators are at most c characters long and user stamps write at most c characters for each byte they take and c besides, a text returned by ExtractStr has at most c+1057 characters for each byte taken and twice that for each call of ExtractStr, hence at most (c+1057)(2P+(4Q+1)n) on n bytes, where P and Q count the stamps reached without passing a picker or lottery.", "quantifier": "every such grammar, every stamp in it, every blob of any size, every state of the recursion flags", "why_tests_cant": "a text that grows faster than its blob (memory of the fuzz target) would need particular nestings and large blobs; the tests run a few small ones", "anchors": ["src/stamp_enumerator.cpp: StampEnumerator::ExtractStr", "include/blobstamper/helpers.h: to_string_precise", "src/stamp_math_op.cpp: StampMathUnaryOp::ExtractStr, StampMathBinaryOp::ExtractStr", "include/blobstamper/stamp_text.h: StampText::ExtractStr", "examples/exampleZZ.cpp"]}
{"id": "C89", "title": "Asking for a size again changes nothing", "statement": "An extraction that calls minSize(), maxSize() and isFixedSize(), isVariated(), isUnbounded() of the stamps it uses wherever the code does, again and again while bytes are taken and stamps are run, ends with the same text or exception, the same flags and the same rest of the blob as one that asks every stamp once for both sizes before it starts and keeps the answers.", "quantifier": "every graph of stamps, every blob, every state of the recursion flags", "why_tests_cant": "the answers could differ for particular wirings and flags only, in the middle of one extraction; the tests do not compare answers within a run", "anchors": ["src/galley.cpp: GalleyVectorBase::extract_internal, GalleySetBase::extract_internal", "src/stamp_json.cpp: PoolPickerStamp::ExtractStr", "include/blobstamper/stamp_lottery.h: ExtractStr, soft_maxsize_filter", "include/blobstamper/stamp.h: isFixedSize, isVariated, isUnbounded"]}
{"id": "C90", "title": "All calls of an extraction are proportional to its data", "statement": "If every size query of the grammar makes at most S calls and no set, picker or lottery holds more than w stamps, then an extraction that ends makes at most 1 + 25wS + 10S calls of ExtractStr, minSize() and maxSize() together for each of its calls of ExtractStr, and at most 2S more for each byte of the blob, whatever its outcome. So for a grammar whose recursion goes through pickers and lotteries the work of an extraction, size queries included, grows in proportion to the size of the blob; StampJSON makes at most 6440 calls for each byte and 6440 more.", "quantifier": "every graph of stamps with priced size queries, every blob, every outcome", "why_tests_cant": "the galleys ask for sizes inside their loops over parts and stamps, so the factor could grow with the data; tests see neither counts nor large blobs", "anchors": ["src/galley.cpp: GalleyVectorBase::extract_internal, GalleySetBase::extract_internal", "src/stamp_json.cpp: PoolPickerStamp::ExtractStr, minSize, maxSize", "include/blobstamper/stamp_lottery.h: ExtractStr", "include/blobstamper/stamp.h: isFixedSize, isVariated, isUnbounded"]}
{"id": "C91", "title": "Other data for the single stamps leaves everything else as it is", "statement": "For every extraction that returns there is a form of the data and a form of the text, both with one place for each use of a single stamp (number, word, character text). The data are the first form filled in with the bytes the single stamps took, and the text is the second form filled in with their texts. If other bytes of the same number are put in these places, and the stamps make texts of them that are empty where they were empty, then the extraction returns the second form filled in with the new texts and leaves the same number of bytes. Numbers, words and texts make a text of any bytes, so for StampJSON, the expressions of exampleZZ and lists of structures any bytes may be put in these places.", "quantifier": "every graph of stamps whose client stamps depend only on the bytes they take and write the texts of their parts in order, every blob, every extraction that returns, all other bytes in the places", "why_tests_cant": "a fuzzer changes single bytes and relies on small changes having local effects; tests compare a few fixed blobs and never two extractions with each other", "anchors": ["src/galley.cpp: GalleyVectorBase::extract_internal, GalleySetBase::extract_internal", "src/stamp_enumerator.cpp: ExtractStr", "src/stamp_json.cpp: PoolPickerStamp::ExtractStr, StampJSONHashEl::ExtractStr", "include/blobstamper/stamp_lottery.h: ExtractStr", "include/blobstamper/stamp_arithm.h: ExtractStr", "src/stamp_dict.cpp: ExtractStr"]}
{"id": "C92", "title": "One stamp used in two places, or two copies of it, makes no difference", "statement": "If every stamp of one family is a copy of a stamp of another family, made of copies of its parts, then a stamp and its original make the same of every blob: the same text with the same bytes left, the same exception, the same undefined behaviour. The recursion may pass through several copies before it comes back to the same object. This holds if all recursion passes through lotteries, and it holds for grammars that recurse through pool pickers if no stamp in them adds up the maxima of its parts. So JSON and expressions may be wired with any number of copies.", "quantifier": "every two families of stamps that correspond, every blob, every outcome; for pickers: finitely many objects, sizes within int", "why_tests_cant": "stamps hold the flags is_in_recursion of the object, so sharing could be visible anywhere in a recursive grammar; a test fixes one wiring", "anchors": ["src/stamp_json.cpp: PoolPickerStamp::minSize, maxSize, ExtractStr", "include/blobstamper/stamp_json.h: PoolPickerStamp, StampJSON", "include/blobstamper/stamp_lottery.h: minSize, maxSize, ExtractStr", "src/galley.cpp: minSize, maxSize, extract_internal", "README.md: 185-186 (one stamp may be applied two times)"]}
{"id": "C93", "title": "The order of alternatives does not limit what can be made", "statement": "Two stamps that differ only in the order in which pickers and lotteries list their alternatives, or in how often an alternative is listed, make the same texts: what one makes of some blob of n bytes, leaving certain bytes, the other makes of some blob of n bytes, leaving the same bytes. This holds if the two report the same sizes. They do for lotteries of stamps of bounded size, for every grammar that recurses through pool pickers and adds up no maxima (JSON in particular), and for arithmetic expressions with the operators appended in any order.", "quantifier": "every two families of stamps whose alternatives correspond as sets, every size below 2147483640, every text, every rest; a picker has at most 256 alternatives; a lottery has the width its constructors give it, the same for both", "why_tests_cant": "the texts a stamp can make are infinitely many and their data differ between the two orders; a test compares outputs for fixed data, which do differ", "anchors": ["include/blobstamper/stamp_lottery.h: Append, oracle_size, ExtractStr", "src/stamp_json.cpp: PoolPickerStamp, StampJSON", "include/blobstamper/oracle.h: ORACLE", "src/galley.cpp: extract_internal", "examples/exampleZZ.cpp"]}
{"id": "C94", "title": "Further alternatives take no text away", "statement": "If alternatives are added to the pickers and lotteries of a family of stamps, then every text that could be made of n bytes, leaving certain bytes, can still be made of n bytes, leaving the same bytes. This holds if the sizes of the stamps stay the same and each further alternative fits only sizes that one of the old alternatives fits. It holds for arithmetic expressions with any further operators, and for JSON with a further number of eight bytes. It fails if a further alternative fits a size that the others do not fill: the others are then no longer chosen.", "quantifier": "every two families of stamps of which one has more alternatives, every size below 2147483640, every text, every rest", "why_tests_cant": "the texts are infinitely many and the data that make them differ once the list of alternatives is longer", "anchors": ["include/blobstamper/stamp_lottery.h: Append, ExtractStr (the second filter)", "src/stamp_json.cpp: PoolPickerStamp::ExtractStr", "examples/exampleZZ.cpp"]}
{"id": "C95", "title": "Bytes that are left over have no influence", "statement": "What an extraction does depends only on the bytes it takes and on how many bytes there are. If the bytes it leaves are replaced by as many others, it ends in the same way, with the same text, with OutOfData, or undefined, and leaves the others. So among blobs of one size the bytes taken are never the beginning of more bytes taken of another blob. Stamps written by clients must be of this kind too; the galleys of binary values, typed values and structures need no such condition.", "quantifier": "every family of stamps, every blob, every outcome, every replacement of the bytes that are left; every galley; the recursion of t/320", "why_tests_cant": "the replacements are as many as there are byte strings, for every blob and every stamp", "anchors": ["src/blob.cpp: Chop", "src/galley.cpp: extract_internal", "include/blobstamper/stamp_lottery.h: ExtractStr", "src/stamp_json.cpp: PoolPickerStamp::ExtractStr", "t/320-galley-recursion-experiments.cpp"]}
{"id": "C96", "title": "There are no more texts than data", "statement": "A stamp that takes at most k of n bytes makes at most 256^k different texts of n bytes; a stamp of bounded size makes at most 256 to its maxSize() texts of data of any one size, however much data there is. Stamps for integers (other than signed char) reach the bound: they make exactly 256^sizeof(T) texts. Stamps written by clients must not look at bytes they do not take.", "quantifier": "every family of stamps, every size of the data, every bound k", "why_tests_cant": "the texts are too many to be counted, and the bound is about all data of a size", "anchors": ["include/blobstamper/stamp.h: ExtractStr, minSize, maxSize", "include/blobstamper/stamp_arithm.h: ExtractStr", "src/galley.cpp: extract_internal", "include/blobstamper/stamp_lottery.h: ExtractStr"]}
{"id": "C97", "title": "Every text for which there is room can be made", "statement": "Whatever the stamps and however they are made of each other, recursively or not: a text put together in the way the stamps are made of each other can be made of exactly n bytes whenever n bytes give room for it. The room is reckoned by rules: a stamp not made of others needs what it makes its text of; a choice adds its oracle and its winner must fit; the members of a structure add up (all but the last of fixed size); a set adds two bytes for each unbounded stamp if there are several (each at most 65535 bytes above its minimum); a list adds two bytes for each element that is not of fixed size and, if the elements are unbounded, two for their number (each at most 32767 bytes above the minimum, the last with a byte to spare). Up to 1500000 bytes.", "quantifier": "every family of stamps with int sizes, every text with room in at most 1500000 bytes", "why_tests_cant": "for every text of every grammar a blob must be found; a test that does not see a text cannot tell whether it cannot be made", "anchors": ["src/galley.cpp: extract_internal", "include/blobstamper/stamp_lottery.h: ExtractStr", "src/stamp_json.cpp: PoolPickerStamp::ExtractStr", "src/stamp_math_op.cpp: ExtractStr", "src/stamp_enumerator.cpp: ExtractStr"]}
{"id": "C98", "title": "Threads that share no pool picker do not disturb each other", "statement": "Several threads may use stamps at the same time, each with blobs of its own, and may share every stamp but pool pickers: whatever each of them calls (ExtractStr, minSize, maxSize, isRecursive, one after the other and depending on what came back) and in whatever order their accesses to the members of the stamps happen, each gets what it would get alone, and comes to its end if it is given enough turns. Threads that share a pool picker do disturb each other: a size or a text can be wrong, the maximal size can be wrong for all later users, an int can overflow, and the program can be aborted.", "quantifier": "every family of stamps, every number of threads, every sequence of calls, every interleaving", "why_tests_cant": "the interleavings are unbounded in number and a test run sees one of them", "anchors": ["include/blobstamper/stamp.h: is_recursive, is_in_recursion", "src/stamp_json.cpp: PoolPickerStamp::isRecursive, minSize, maxSize"]}
{"id": "C99", "title": "Loaded stamps read the client's memory when they are unloaded", "statement": "Load copies nothing: it keeps the place of the bytes, at most maxSize() of them, and moves the client's blob past them. UnloadStr() writes the text of the bytes that are in that place when it is called, as ExtractStr would of a blob of its own; changes to other bytes or other buffers in between have no effect, changes to these do, and after the buffer was freed UnloadStr() is undefined. In every program of such calls, of LoadAll, and of changes to the memory, loaded stamps stay within the client's buffers; stamps loaded by one LoadAll have bytes of their own, so that a change of one byte is seen by at most one of them.", "quantifier": "every stamp whose sizes are ints, every buffer, every change the client makes to its memory between the calls", "why_tests_cant": "quantifies over all contents of the memory at both moments; the tests never touch the buffer in between", "anchors": ["src/blob.cpp: Blob::Blob, Blob::Chop", "src/stamp.cpp: StampBase::Load", "include/blobstamper/stamp.h: UnloadStr", "src/galley.cpp: GalleySetBase::LoadAll"]}
