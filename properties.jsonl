{"id": "C01", "title": "Symbol packing round trip", "statement": "For each supported bit count b (2,3,4,6,8,10,12,16), packing n symbols that are all below 2^b and then unpacking n symbols returns exactly the same symbols, whatever the buffers held before.", "quantifier": "every supported bit count, every count n (including counts that are not a multiple of the packing group), every symbol array with values below 2^b, every previous content of the packed buffer and of the output buffer", "why_tests_cant": "the existing test samples a few thousand values and lengths up to about 3000; it cannot cover all arrays and all tail shapes together", "anchors": ["bytepacker.h: BytePacker::pack", "bytepacker.h: BytePacker::unpack", "bytepacker.h: pack2..pack16", "bytepacker.h: unpack2..unpack16"]}
{"id": "C02", "title": "Packed stream is a little-endian bit stream of exactly bufferSize bytes", "statement": "Packing n in-range symbols with bit count b writes bytes 0..bufferSize(n,b)-1 and nothing else; bit k of the stream is bit (k mod b) of symbol (k div b), and padding bits after the last symbol are zero. Packing never reads a symbol past n and unpacking never reads a byte past bufferSize(n,b) nor writes a symbol past n.", "quantifier": "every supported bit count, symbol count, in-range symbol array, buffer content and buffer length of at least bufferSize", "why_tests_cant": "out-of-bounds accesses and a dependence on earlier buffer contents show up only for particular tail lengths and memory contents", "anchors": ["bytepacker.h: BytePacker::bufferSize", "bytepacker.h: pack2..pack16", "bytepacker.h: unpack2..unpack16"]}
{"id": "C03", "title": "Unsupported bit counts are refused before anything is written", "statement": "pack and unpack with a bit count outside {2,3,4,6,8,10,12,16} raise an error and leave the destination untouched; every bit count in the set is accepted for every symbol count.", "quantifier": "every unsigned bit count and symbol count", "why_tests_cant": "there are 2^32 bit counts; a test picks a few", "anchors": ["bytepacker.h: BytePacker::pack", "bytepacker.h: BytePacker::unpack"]}
{"id": "C04", "title": "Dictionary search returns the first element not less than the value", "statement": "For every ascending dictionary of at least two elements (at least one for the one-minimum variants) and every finite value, the default search and the branchless search return the index of the first element that is >= value, or the size if there is none, also when values occur more than once. The three bisecting variants return the same index when no value occurs twice; so all variants agree on every dictionary the encoders use.", "quantifier": "every dictionary size and content in ascending order (duplicates allowed for the two branchless searches), every finite value", "why_tests_cant": "binary search boundary errors appear only for special sizes (powers of two) and values equal to elements; a test samples sizes", "anchors": ["dictionary.h: Dictionary::lower_bound", "dictionary.h: lower_bound_branchless_two_minimum", "dictionary.h: lower_bound_branchless", "dictionary.h: lower_bound_two_minimum", "dictionary.h: lower_bound_one_minimum", "dictionary.h: lower_bound_slow"]}
{"id": "C05", "title": "Dictionary search stays inside the dictionary", "statement": "No lower_bound variant dereferences a position outside the dictionary, for any size and any content, sorted or not. For the dictionary sizes that the encoders create (2^b - 1) the default search also never forms a pointer beyond one past the end.", "quantifier": "every dictionary size >= 1 (>= 2 where required), every content including unsorted and NaN, every value", "why_tests_cant": "reading one element past an array usually goes unnoticed in a test run", "anchors": ["dictionary.h: Dictionary::lower_bound_branchless_two_minimum", "dictionary.h: lower_bound_two_minimum", "dictionary.h: lower_bound_slow"]}
{"id": "C06", "title": "Quantising a finite value gives the cell that contains it", "statement": "Encode of a finite value returns the unique symbol s in 0..quantCount-2 such that the value is above the right boundary of s-1 (if s > 0) and at most the right boundary of s. It never returns the symbol reserved for non-finite values, not even for the largest finite float, and larger values never get smaller symbols.", "quantifier": "every quantisation count >= 3, every ascending boundary table ending in the largest finite float, every finite float", "why_tests_cant": "there are 2^32 floats and arbitrarily many tables; ties on a boundary are a measure-zero case that random tests miss", "anchors": ["stochasticencoder.h: StochasticEncoder::Encode", "stochasticencoder.h: StochasticEncoder::RightBoundary", "dictionary.h: Dictionary::symbol"]}
{"id": "C07", "title": "Non-finite values survive as NaN, and only they do", "statement": "NaN and infinities are encoded, with and without dithering, to the reserved symbol quantCount-1, which decodes to NaN; a finite value is never encoded to the reserved symbol and always decodes to a finite value.", "quantifier": "every encoder table, every float value, every dither value", "why_tests_cant": "a single finite value that maps to the reserved symbol silently flags data; tests only try a few values", "anchors": ["stochasticencoder.h: StochasticEncoder::Encode", "stochasticencoder.h: StochasticEncoder::EncodeWithDithering", "stochasticencoder.h: StochasticEncoder::Decode", "stochasticencoder.cc: StochasticEncoder::StochasticEncoder"]}
{"id": "C08", "title": "Undithered re-encoding of decoded values is stable", "statement": "Encoding without dithering the decoded value of any non-reserved symbol returns the same symbol, so compressing already compressed values changes nothing.", "quantifier": "every quantisation count >= 3 and every strictly increasing quantile function the tables are built from, every non-reserved symbol", "why_tests_cant": "must hold for all symbols of all table sizes and distributions at once", "anchors": ["stochasticencoder.h: StochasticEncoder::Encode", "stochasticencoder.h: StochasticEncoder::Decode", "stochasticencoder.cc: initializeStudentT", "stochasticencoder.cc: initializeTruncatedGaussian"]}
{"id": "C09", "title": "Dithered quantisation picks a neighbouring level", "statement": "EncodeWithDithering of a finite value returns a symbol whose level is one of the two levels enclosing the value, or the first or last level if the value is outside the table; a value strictly between two neighbouring levels never jumps further, for any dither value and in real float arithmetic.", "quantifier": "every ascending level table with at least two levels, every finite float value, every 32-bit dither value", "why_tests_cant": "the outcome depends on a random 31-bit number and float rounding; a test sees a few draws", "anchors": ["stochasticencoder.h: StochasticEncoder::EncodeWithDithering"]}
{"id": "C10", "title": "Dithering is unbiased", "statement": "Averaged over all 2^31 equally likely dither values, the decoded level of a value inside the table equals the value up to less than 2^-31 of the distance between the two enclosing levels (exact arithmetic).", "quantifier": "every ascending level table, every value between its first and last level; the average ranges over all 2^31 dither values", "why_tests_cant": "statistical tests can only estimate the mean with noise", "anchors": ["stochasticencoder.h: StochasticEncoder::EncodeWithDithering", "stochasticencoder.h: StochasticEncoder::GetDitherDistribution"]}
{"id": "C11", "title": "Dithered re-encoding of decoded values is stable", "statement": "Encoding with dithering a value that equals a level of the table returns that level's symbol for every dither value, so decompressing and compressing again with the same scale is lossless.", "quantifier": "every ascending level table, every level, every dither value in 0..2^31-1, binary32 arithmetic", "why_tests_cant": "fails only for the 64 largest of 2^31 dither values (about once per 33 million samples), which tests never hit", "anchors": ["stochasticencoder.h: StochasticEncoder::EncodeWithDithering", "stochasticencoder.h: StochasticEncoder::GetDitherDistribution"]}
{"id": "C12", "title": "Quantisation tables are well formed for every distribution", "statement": "For every quantisation count >= 3 and every strictly increasing quantile function, the constructed tables have quantCount-1 levels and quantCount-1 boundaries, both ascending, each level lies between its own two boundaries, the last boundary is the largest finite float, and the slot after the last level holds NaN within reserved memory.", "quantifier": "every quantisation count >= 3, every distribution given by a strictly increasing quantile function", "why_tests_cant": "the table invariants must hold for all bit counts and distributions because the binary search silently misbehaves on unsorted tables", "anchors": ["stochasticencoder.cc: StochasticEncoder::StochasticEncoder", "stochasticencoder.cc: initializeStudentT", "stochasticencoder.cc: initializeTruncatedGaussian"]}
{"id": "C13", "title": "Uniform quantiser error is at most half a step", "statement": "With the uniform distribution, encoding without dithering any value in the covered range and decoding it gives a value within half a quantisation step; values outside the covered range decode to the nearest end level; with dithering the error is at most one step.", "quantifier": "every quantisation count >= 3, every positive standard deviation, every value in range, every dither value (exact arithmetic)", "why_tests_cant": "a worst-case bound over a continuum", "anchors": ["stochasticencoder.cc: StochasticEncoder::StochasticEncoder", "stochasticencoder.h: Encode"]}
{"id": "C14", "title": "Weight symbols always fit in the configured bit count", "statement": "Compressing a block of finite non-negative weights yields only symbols in 0..quantCount-1, in real float/double arithmetic including all roundings, so packing them cannot corrupt neighbouring symbols.", "quantifier": "every quantisation count 2..2^16, every block of finite non-negative float weights, every number of polarisations >= 1 and channels", "why_tests_cant": "an off-by-one caused by rounding (largest weight rounding up to quantCount) happens only for special maxima", "anchors": ["weightblockencoder.h: WeightBlockEncoder::Encode"]}
{"id": "C15", "title": "Weight compression error is bounded", "statement": "A decoded weight differs from the smallest polarisation weight of that sample by at most max/(2(quantCount-1)), up to floating point rounding; zero decodes to exactly zero, the largest weight of the block decodes to itself up to rounding, and decoded weights never exceed the block maximum by more than rounding.", "quantifier": "every quantisation count 2..2^16, every block of finite non-negative weights", "why_tests_cant": "worst-case error over all blocks and all floats", "anchors": ["weightblockencoder.h: WeightBlockEncoder::Encode", "weightblockencoder.h: WeightBlockEncoder::Decode", "weightblockencoder.h: WeightBlockEncoder::InitializeDecode"]}
{"id": "C16", "title": "One weight per sample, the smallest of the polarisations", "statement": "After a weight block round trip all polarisations of a sample have the same weight, and this common value depends only on the smallest polarisation weight of that sample and the block maximum of those smallest weights; an all-zero block decodes to all zeros.", "quantifier": "every block of finite non-negative weights, every shape with at least one polarisation", "why_tests_cant": "relational property over pairs of blocks", "anchors": ["weightblockencoder.h: WeightBlockEncoder::Encode", "weightblockencoder.h: WeightBlockEncoder::Decode"]}
{"id": "C17", "title": "Weights outside the supported domain", "statement": "Weight compression is only defined for non-negative finite weights and at least one polarisation: for every block that contains a sample whose smallest weight rounds to a negative symbol, or is NaN as first polarisation, the conversion to an unsigned symbol is undefined behaviour, and with zero polarisations the minimum loop does not stop.", "quantifier": "every block violating the precondition", "why_tests_cant": "undefined behaviour has no test oracle", "anchors": ["weightblockencoder.h: WeightBlockEncoder::Encode"]}
{"id": "C18", "title": "Vector weight encoder round trip", "statement": "The stand-alone weight vector encoder maps every non-negative vector with a positive maximum to symbols at most quantCount-1 and back to values within half a step, with the maximum itself reproduced; for an all-zero vector the result is undefined (division by zero).", "quantifier": "every non-empty vector of non-negative values, every quantCount >= 2 (exact arithmetic)", "why_tests_cant": "worst-case over all vectors", "anchors": ["weightencoder.h: WeightEncoder::Encode", "weightencoder.h: WeightEncoder::Decode"]}
{"id": "C19", "title": "Row normalisation never clips", "statement": "With row normalisation every finite component of a visibility whose largest component is finite is scaled into [-maxLevel, maxLevel] before quantisation, in real double/float arithmetic, so no value is clipped to the table ends.", "quantifier": "every block shape, every block of visibilities, every encoder table with positive largest level", "why_tests_cant": "a rounding of the factor could push exactly the largest value over the top level, which only happens for special maxima", "anchors": ["rowtimeblockencoder.cc: RowTimeBlockEncoder::encode"]}
{"id": "C20", "title": "Row normalisation round trip error", "statement": "With row normalisation a decoded component differs from the original by at most the quantisation error in units of that row's scale (row maximum / largest level); the error never depends on other rows of the block.", "quantifier": "every block, every table, every dither stream (exact arithmetic)", "why_tests_cant": "worst-case bound and independence of other rows are relational statements over all blocks", "anchors": ["rowtimeblockencoder.cc: RowTimeBlockEncoder::encode", "rowtimeblockencoder.cc: RowTimeBlockEncoder::Decode", "rowtimeblockencoder.cc: RowTimeBlockEncoder::InitializeDecode"]}
{"id": "C21", "title": "Row-frequency normalisation never clips", "statement": "With RF normalisation every finite component of a visibility whose largest component is finite ends up within [-maxLevel, maxLevel], and every channel/polarisation that has a non-zero finite value attains the maximum level.", "quantifier": "every block shape, every block of visibilities, every positive largest level", "why_tests_cant": "two interacting scaling passes over arbitrary data", "anchors": ["rftimeblockencoder.cc: RFTimeBlockEncoder::maximizeRows", "rftimeblockencoder.cc: RFTimeBlockEncoder::maximizeChannels"]}
{"id": "C22", "title": "Row-frequency normalisation round trip error", "statement": "With RF normalisation the decoded component differs from the original by at most the quantisation error times the stored channel factor times the stored row factor; the stored factors exactly undo the scaling.", "quantifier": "every block, every table, every dither stream (exact arithmetic)", "why_tests_cant": "bookkeeping of factors across two passes has to be right for all data", "anchors": ["rftimeblockencoder.cc: RFTimeBlockEncoder::encode", "rftimeblockencoder.cc: RFTimeBlockEncoder::InitializeDecode", "rftimeblockencoder.cc: RFTimeBlockEncoder::Decode"]}
{"id": "C23", "title": "Zeros stay zero and flags stay flags through row and RF normalisation", "statement": "A component that is NaN or infinite decodes to NaN, a component of an all-zero row decodes to zero, and a finite component of a visibility with no non-finite values decodes to a finite value, for row and RF normalisation.", "quantifier": "every block, every table, every dither stream", "why_tests_cant": "one flagged sample must never flag or alter others, for any placement of flagged samples", "anchors": ["rftimeblockencoder.cc: RFTimeBlockEncoder::encode", "rowtimeblockencoder.cc: RowTimeBlockEncoder::encode"]}
{"id": "C24", "title": "Half-flagged visibilities can be clipped", "statement": "A visibility whose real part is NaN but whose imaginary part is finite is not included in the row maximum, so its imaginary part can be clipped to the largest level; when instead the imaginary part is NaN the real part is included and not clipped.", "quantifier": "every block; the order of the parts matters", "why_tests_cant": "depends on the argument order of std::max with NaN, which tests with fully flagged values never exercise", "anchors": ["rowtimeblockencoder.cc: RowTimeBlockEncoder::encode", "rftimeblockencoder.cc: RFTimeBlockEncoder::maximizeRows"]}
{"id": "C25", "title": "Antenna-frequency factors exactly undo the scaling", "statement": "With AF normalisation the scaled sample times the stored channel factor times both stored antenna factors equals the original sample for every sample whose antennas both have a non-zero RMS; samples of an antenna with zero RMS decode to zero.", "quantifier": "every block with antenna indices below the antenna count, every sequence of channel and antenna adjustments (exact arithmetic)", "why_tests_cant": "an unbounded number of interleaved rescalings must keep data and metadata consistent", "anchors": ["aftimeblockencoder.cc: AFTimeBlockEncoder::encode", "aftimeblockencoder.cc: fitToMaximum", "aftimeblockencoder.cc: changeAntennaFactor", "aftimeblockencoder.cc: changeChannelFactor", "aftimeblockencoder.cc: AFTimeBlockEncoder::Decode"]}
{"id": "C26", "title": "Antenna-frequency fitting bounds cross-correlations", "statement": "After AF fitting every cross-correlation sample whose largest component is finite lies within [-maxLevel, maxLevel]; auto-correlations get an antenna factor twice and are not bounded.", "quantifier": "every block, every positive maxLevel (exact arithmetic)", "why_tests_cant": "must hold after any number of greedy steps", "anchors": ["aftimeblockencoder.cc: AFTimeBlockEncoder::fitToMaximum"]}
{"id": "C27", "title": "Antenna-frequency fitting terminates", "statement": "The greedy fitting loop stops after finitely many iterations for every block, so encoding never hangs.", "quantifier": "every block, every positive maxLevel, any number of antennas and channels (exact arithmetic)", "why_tests_cant": "non-termination cannot be observed by a test", "anchors": ["aftimeblockencoder.cc: AFTimeBlockEncoder::fitToMaximum"]}
{"id": "C28", "title": "Block encoders agree on block layout", "statement": "For every normalisation and for weights, encoding a full block writes exactly the announced number of metadata floats and symbols, each symbol below 2^bits, at positions that the decoder of that same normalisation reads; the announced block size is the metadata size plus the packed symbol size; decoding a row reads only inside the block.", "quantifier": "every block shape, antenna count, normalisation, bit count", "why_tests_cant": "index arithmetic for all shapes", "anchors": ["threadeddyscocolumn.cc: CalculateBlockSize", "threadeddyscocolumn.cc: encodeAndWrite", "threadeddyscocolumn.cc: loadBlock", "aftimeblockencoder.h: MetaDataCount", "rftimeblockencoder.h: MetaDataCount", "rowtimeblockencoder.h: MetaDataCount", "weightblockencoder.h: SymbolCount"]}
{"id": "C29", "title": "Block buffer behaves as a map from row to data", "statement": "Setting rows of a block buffer in any order and any number of times and then getting a row that was set returns the last data set for it; setting one row never changes another, and the number of rows is one more than the highest row set.", "quantifier": "every sequence of set operations", "why_tests_cant": "all operation sequences", "anchors": ["timeblockbuffer.h: TimeBlockBuffer::SetData", "timeblockbuffer.h: TimeBlockBuffer::GetData", "timeblockbuffer.h: TimeBlockBuffer::NRows", "timeblockbuffer.h: TimeBlockBuffer::MaxAntennaIndex"]}
{"id": "C30", "title": "File header round trip", "statement": "Reading back a written header gives exactly the values written, for every storage manager name and every field value that fits its stored width, and the column header offset field points at the byte right after the main header.", "quantifier": "every header content with fields in their stored range", "why_tests_cant": "all field values and name lengths", "anchors": ["header.h: Header::Serialize", "header.h: Header::Unserialize", "header.h: Header::calculateColumnHeaderOffset", "serializable.h: SerializeTo32bString"]}
{"id": "C31", "title": "Manager settings survive closing and reopening", "statement": "After writing the header, opening the file with the same columns restores bit counts, distribution, normalisation, parameters, rows per block, antenna count, block size, header size and each column's own header. This needs the bit counts to be at most 255: larger ones are silently reduced modulo 256.", "quantifier": "every manager state, any number of columns", "why_tests_cant": "all states; width truncation only shows for out-of-range values", "anchors": ["dyscostman.cc: DyscoStMan::writeHeader", "dyscostman.cc: DyscoStMan::readHeader", "threadeddyscocolumn.cc: SerializeExtraHeader", "threadeddyscocolumn.cc: UnserializeExtraHeader"]}
{"id": "C32", "title": "Header never overlaps data blocks", "statement": "The bytes written for the main header and all column headers end before the first data block, for any number of columns and any name, so rewriting the header never damages block data and vice versa.", "quantifier": "every manager state, any number of columns", "why_tests_cant": "holds for any number of columns and name lengths", "anchors": ["dyscostman.cc: DyscoStMan::writeHeader", "dyscostman.h: getFileOffset"]}
{"id": "C33", "title": "Incompatible or damaged files are refused", "statement": "Opening a file fails with an error when it is shorter than a main header, when the version is not 1.0, or when the number of columns differs from the table's; with a valid header it succeeds.", "quantifier": "every byte content of the file", "why_tests_cant": "all byte strings", "anchors": ["dyscostman.cc: DyscoStMan::readHeader", "dyscostman.cc: DyscoStMan::open"]}
{"id": "C34", "title": "Rows map one-to-one to block positions", "statement": "Every table row belongs to exactly one (block, row in block) pair, the row in block is below the rows per block, and the first row of a block plus the row in block gives the row back.", "quantifier": "every row number and every positive rows per block", "why_tests_cant": "all rows and block sizes", "anchors": ["dyscostman.h: getBlockIndex", "dyscostman.h: getRowWithinBlock", "dyscostman.h: getRowIndex"]}
{"id": "C35", "title": "Columns and blocks occupy disjoint file regions", "statement": "After the block layout is fixed, the byte ranges of any two different (block, column) pairs are disjoint and every range lies after the header, provided the total block size is below 2^32; the regions of one block are contiguous and fill the block.", "quantifier": "every list of columns with any block sizes, every pair of blocks", "why_tests_cant": "all layouts; an overlap silently corrupts another column", "anchors": ["dyscostman.cc: DyscoStMan::initializeRowsPerBlock", "dyscostman.h: getFileOffset", "dyscostman.cc: writeCompressedData"]}
{"id": "C36", "title": "Storage level read-after-write", "statement": "After any sequence of block writes by any columns in any order, reading a block of a column returns the bytes of the last write to that block and column.", "quantifier": "every sequence of writes over all columns and blocks in any order", "why_tests_cant": "all write sequences", "anchors": ["dyscostman.cc: DyscoStMan::writeCompressedData", "dyscostman.cc: DyscoStMan::readCompressedData"]}
{"id": "C37", "title": "Reading blocks that a column never wrote", "statement": "Reading a block of a column that was never written, while other columns or later blocks were, either gives bytes that are all zero (a hole in the file) or, only in the last block, leaves part of the caller's buffer unchanged; it never raises an I/O error for an existing block, and all-zero blocks decode to zero for every normalisation and for weights.", "quantifier": "every sequence of writes, every unwritten (block, column)", "why_tests_cant": "depends on the write order of all columns", "anchors": ["dyscostman.cc: DyscoStMan::readCompressedData", "threadeddyscocolumn.cc: loadBlock"]}
{"id": "C38", "title": "Block count after reopening", "statement": "After reopening, the number of blocks is the file size after the header divided by the block size; it equals the number of blocks before closing exactly when the last column of the last block was written, otherwise the last, partly written block is no longer visible.", "quantifier": "every sequence of writes before closing", "why_tests_cant": "depends on which columns wrote the last block", "anchors": ["dyscostman.cc: DyscoStMan::open", "dyscostman.cc: writeCompressedData"]}
{"id": "C39", "title": "Specification record round trip", "statement": "Creating a manager from the specification record of another gives the same bit counts, distribution, normalisation and parameters for the Gaussian, uniform and truncated Gaussian distributions; for the Student-t distribution the record is rejected because its name is written as 'StudentsT' but read as 'StudentT'.", "quantifier": "every manager setting with bit counts 1..2^31-1", "why_tests_cant": "all settings combinations", "anchors": ["dyscostman.cc: DyscoStMan::dataManagerSpec", "dyscostman.cc: DyscoStMan::setFromSpec"]}
{"id": "C40", "title": "Row bookkeeping", "statement": "The manager's row count equals the initial count plus added minus removed rows after any sequence of operations; removing is accepted only for the last row and never makes the count negative; refused removals change nothing.", "quantifier": "every sequence of addRow/removeRow calls within 2^32 rows", "why_tests_cant": "all operation sequences", "anchors": ["dyscostman.cc: DyscoStMan::addRow", "dyscostman.cc: DyscoStMan::removeRow"]}
{"id": "C41", "title": "Columns can only be added before data is committed", "statement": "Adding a column once a block was written is refused and leaves the file unchanged; removing a column rewrites the header with a smaller header size although the existing blocks stay where they are, so remaining columns then read from shifted positions.", "quantifier": "every manager state", "why_tests_cant": "a state-dependent guard over all histories", "anchors": ["dyscostman.cc: DyscoStMan::addColumn", "dyscostman.cc: DyscoStMan::removeColumn", "dyscostman.cc: writeHeader"]}
{"id": "C42", "title": "Block size is fixed once", "statement": "The rows per block become the index of the first written row whose time, field or data description differs from the first row (for consecutive writes from row 0); later attempts to fix different values are refused, and repeating the same values keeps the same layout.", "quantifier": "every sequence of written rows with their times, fields and data description ids", "why_tests_cant": "all row histories", "anchors": ["threadeddyscocolumn.cc: putValues", "dyscostman.cc: initializeRowsPerBlock"]}
{"id": "C43", "title": "Write cache is bounded and each block is in flight at most once", "statement": "Under every interleaving of the client and any number of encoder threads the write cache never exceeds its limit, holds at most one entry per block, and no block is being encoded by two threads at the same time.", "quantifier": "every schedule, every number of threads, every sequence of stored blocks", "why_tests_cant": "thread interleavings cannot be enumerated by tests", "anchors": ["threadeddyscocolumn.cc: storeBlock", "threadeddyscocolumn.cc: EncodingThreadFunctor::operator()", "threadeddyscocolumn.cc: isWriteItemAvailable", "threadeddyscocolumn.h: maxCacheSize"]}
{"id": "C44", "title": "Every stored block is written exactly once and the last store wins", "statement": "Under every interleaving, each block handed to the write cache is written exactly once, writes of the same block happen in the order of the stores, and once the cache is empty the file holds for every block the data of its last store.", "quantifier": "every schedule, every number of threads, every sequence of stores", "why_tests_cant": "lost or reordered writes occur only in rare schedules", "anchors": ["threadeddyscocolumn.cc: storeBlock", "threadeddyscocolumn.cc: EncodingThreadFunctor::operator()", "threadeddyscocolumn.cc: encodeAndWrite"]}
{"id": "C45", "title": "No lost wake-up or deadlock in the write cache", "statement": "Under every interleaving, with at least one encoder thread, whenever the client is blocked (storing, reading or stopping) some thread can take a step that leads to progress; no reachable state is stuck before all work is done and all threads have ended.", "quantifier": "every schedule, every number of threads >= 1, every client operation sequence", "why_tests_cant": "a lost wake-up needs an unlucky schedule", "anchors": ["threadeddyscocolumn.cc: storeBlock", "threadeddyscocolumn.cc: getValues", "threadeddyscocolumn.cc: stopThreads", "threadeddyscocolumn.cc: EncodingThreadFunctor::operator()"]}
{"id": "C46", "title": "Stopping drains the cache first", "statement": "When stopping returns normally every stored block has been written and every encoder thread has ended; threads never stop while blocks remain.", "quantifier": "every schedule", "why_tests_cant": "depends on the schedule", "anchors": ["threadeddyscocolumn.cc: stopThreads", "threadeddyscocolumn.cc: shutdown", "threadgroup.h: join_all"]}
{"id": "C47", "title": "Reads see completed writes", "statement": "Reading a row of a block that is already counted in the file and that is in the write cache waits for the pending write, and returns the data of the last store of that block, under every interleaving.", "quantifier": "every schedule, every sequence of stores and reads", "why_tests_cant": "a stale read needs an unlucky schedule", "anchors": ["threadeddyscocolumn.cc: getValues", "threadeddyscocolumn.cc: loadBlock"]}
{"id": "C48", "title": "Reads of rows that are not yet in the file return zero", "statement": "A row that was just put but whose block is not yet counted in the file reads as zero, although the data is held in memory; a row put before the block size is known always reads as zero. So get-after-put does not hold in general.", "quantifier": "every history and schedule", "why_tests_cant": "schedule dependent", "anchors": ["threadeddyscocolumn.cc: getValues"]}
{"id": "C49", "title": "Re-opening a block for writing while it is in the write cache loses rows", "statement": "Putting a row into a block that is still in the write cache starts from the file contents (or from an unrelated buffer) instead of the pending data, so other rows of that block can revert; if the block is not in the cache the other rows keep their stored value.", "quantifier": "every history and schedule", "why_tests_cant": "needs the put to happen before the encoder thread finishes", "anchors": ["threadeddyscocolumn.cc: putValues", "threadeddyscocolumn.cc: loadBlock"]}
{"id": "C50", "title": "A table with a single time block cannot be flushed", "statement": "If all rows put into a new table belong to one time block, closing raises an error and no block is written; with rows from at least two time blocks closing writes every block.", "quantifier": "every row history", "why_tests_cant": "all row histories", "anchors": ["threadeddyscocolumn.cc: shutdown", "threadeddyscocolumn.cc: stopThreads", "threadeddyscocolumn.cc: putValues"]}
{"id": "C51", "title": "Adding a column while a write is pending can deadlock", "statement": "Preparing the manager waits for the write cache to empty while holding the lock that encoder threads need to write, so from a state with a pending block and no committed block, adding a column can block forever.", "quantifier": "every schedule from such a state", "why_tests_cant": "a deadlock has no test oracle and needs a particular schedule", "anchors": ["dyscostman.cc: DyscoStMan::prepare", "dyscostman.cc: DyscoStMan::addColumn", "threadeddyscocolumn.cc: Prepare", "threadeddyscocolumn.cc: stopThreads", "dyscostman.cc: writeCompressedData"]}
{"id": "C52", "title": "Regularity check accepts exactly the regular tables", "statement": "The compression tool's ordering check passes if and only if all time blocks have the same baselines in the same order; when a later block is longer than the first block the check reads outside its baseline list.", "quantifier": "every table contents", "why_tests_cant": "all tables", "anchors": ["dscompress.cc: main"]}
{"id": "C53", "title": "Regular tables have a fixed block size", "statement": "If the ordering check passes, then every time block has the same number of rows, the automatically determined rows per block equals it, and every row's antennas equal those of the row at the same position in the first block, so all antenna indices are below the antenna count used for the metadata.", "quantifier": "every table accepted by the check", "why_tests_cant": "links the tool's check with the storage manager's assumption for all tables", "anchors": ["dscompress.cc: main", "threadeddyscocolumn.cc: putValues", "aftimeblockencoder.cc: AFTimeBlockEncoder::encode"]}
{"id": "C54", "title": "Command line parsing", "statement": "The compression tool applies the last given value of each option, defaults otherwise, uses DATA when no column is given, rejects unknown options, and reads past the argument list when an option value or the table name is missing.", "quantifier": "every argument list", "why_tests_cant": "all argument lists", "anchors": ["dscompress.cc: main"]}
{"id": "C55", "title": "Flagged samples become NaN, others are untouched", "statement": "The compression tool replaces exactly the flagged samples by NaN and rewrites only rows that contain a flagged sample.", "quantifier": "every table contents and flag array", "why_tests_cant": "all flag patterns", "anchors": ["dscompress.cc: main"]}
{"id": "C56", "title": "Replacing a column's storage keeps the data reachable at every crash point", "statement": "While a column is moved to another storage manager, at every intermediate point the old values are available either under the column name or under the temporary name, and afterwards the new column has every old value (as stored by the new manager) and the temporary column is gone. Exception: if the new manager still has to flush its last block when the old column is removed, a later flush error loses that data.", "quantifier": "every table, every crash point", "why_tests_cant": "crash points", "anchors": ["stmanmodifier.h: MoveColumnData", "stmanmodifier.h: PrepareReplacingColumn", "stmanmodifier.h: InitColumnWithDefaultStMan", "decompress.cc: main"]}
{"id": "C57", "title": "Decompressing is all or nothing per column and idempotent", "statement": "Running the decompression tool on a table without Dysco columns changes nothing; on a table with Dysco DATA and WEIGHT_SPECTRUM columns both end up in the default manager with the values that were read; running it twice equals running it once.", "quantifier": "every table that has both columns", "why_tests_cant": "all tables", "anchors": ["decompress.cc: main", "stmanmodifier.h: InitColumnWithDefaultStMan", "stmanmodifier.h: Reorder"]}
{"id": "C58", "title": "UVector behaves like a sequence", "statement": "Any sequence of push_back, pop_back, insert, erase, resize, reserve, shrink_to_fit, assign, clear and swap on a UVector has the same visible contents as on a plain sequence, with size <= capacity always; elements created by uninitialised growth are unspecified.", "quantifier": "every operation sequence with arguments that do not alias the container", "why_tests_cant": "all operation sequences", "anchors": ["uvector.h: UVector"]}
{"id": "C59", "title": "UVector copy assignment", "statement": "After a = b, a equals b. This holds when the size of b exceeds the capacity of a or equals the size of a, but otherwise the size of a is not updated.", "quantifier": "every pair of vectors", "why_tests_cant": "all size and capacity combinations", "anchors": ["uvector.h: UVector::operator=", "uvector.h: UVector::assign_copy_from"]}
{"id": "C60", "title": "UVector insertion of an own element", "statement": "push_back or insert of a reference to an element of the same vector inserts that element's value. This fails when storage is reallocated (the old storage was already released) or when insert shifts the referenced element.", "quantifier": "every vector state and element index", "why_tests_cant": "use after free has no reliable test oracle", "anchors": ["uvector.h: UVector::push_back", "uvector.h: UVector::insert", "uvector.h: UVector::enlarge"]}
{"id": "C61", "title": "End to end: what is read back", "statement": "Writing every row of a table with equal-length blocks, closing, reopening and reading any row gives, for weights, row normalised data and row-frequency normalised data, exactly the quantised values of what was written, within the stated error bounds.", "quantifier": "every table with at least two blocks, every supported bit count, every schedule of the encoder threads", "why_tests_cant": "composition of all layers for all inputs", "anchors": ["threadeddyscocolumn.cc: putValues", "threadeddyscocolumn.cc: getValues", "dyscostman.cc: writeCompressedData", "bytepacker.h: BytePacker", "weightblockencoder.h: WeightBlockEncoder", "rowtimeblockencoder.cc: RowTimeBlockEncoder"]}
{"id": "C62", "title": "Adding a column forgets rows that are not stored yet", "statement": "Preparing a column replaces its block buffer by an empty one and forgets the current block. Rows that were put but not yet stored when a column is added to the table are therefore in no buffer, no cache and no file afterwards, and no error is raised.", "quantifier": "every state and schedule in which a column is added", "why_tests_cant": "data loss without an error", "anchors": ["threadeddyscocolumn.cc: Prepare", "dyscostman.cc: addColumn", "dyscostman.cc: prepare"]}
{"id": "C63", "title": "UVector comparison", "statement": "For elements with a total order, exactly one of a < b, a == b, a > b holds, < is the lexicographic order of the contents and <= and >= are consistent with it; with an unordered element (NaN) < fails both ways and <= holds both ways.", "quantifier": "all pairs of vectors", "why_tests_cant": "all contents and lengths", "anchors": ["uvector.h: operator==", "uvector.h: operator<", "uvector.h: operator<=", "uvector.h: operator>", "uvector.h: operator>="]}
{"id": "C64", "title": "UVector storage is safe under allocation failures", "statement": "In every program over any number of vectors that respects the preconditions of the operations, no operation accesses memory outside an allocated block, no block is released twice or shared by two vectors, every allocated block belongs to a vector (nothing leaks), and an operation throws only when an allocation fails, in which case all vectors are unchanged.", "quantifier": "every program, every pattern of allocation failures", "why_tests_cant": "all programs and all failure patterns", "anchors": ["uvector.h: UVector"]}
{"id": "C65", "title": "Name of the temporary copy when reordering", "statement": "The reorder step copies the table to its path without trailing slashes followed by 'temp'; a path that consists of slashes only (or is empty) makes it read before the beginning of the string.", "quantifier": "every path", "why_tests_cant": "all paths", "anchors": ["stmanmodifier.h: Reorder"]}
{"id": "C66", "title": "Closing and reopening restores the storage manager", "statement": "After a new table was given its block layout and any sequence of block writes and reads, opening the file and preparing the columns again gives the same manager state: the same columns with their offsets, sizes and bit counts, the same block count and the same file. The block count is restored when the last column has stored the last block.", "quantifier": "every configuration, every set of columns, every sequence of block operations", "why_tests_cant": "all layouts and all operation sequences", "anchors": ["dyscostman.cc: open", "dyscostman.cc: readHeader", "dyscostman.cc: prepare", "dyscostman.cc: initializeRowsPerBlock", "dyscostman.cc: writeHeader"]}
{"id": "C67", "title": "Row normalised round trip in float arithmetic", "statement": "With all arithmetic rounded as float and double, decoding an encoded row normalised block gives for every finite component of magnitude at most 2^127 a finite value within the quantisation gap scaled by the row maximum plus a stated rounding term; a row maximum near the largest float can decode to infinity.", "quantifier": "every block of float values, every quantisation table, every dither", "why_tests_cant": "all float values and all roundings", "anchors": ["rowtimeblockencoder.cc: RowTimeBlockEncoder::encode", "rowtimeblockencoder.cc: RowTimeBlockEncoder::Decode"]}
{"id": "C68", "title": "The inverse of the cumulative normal distribution always ends", "statement": "invCumulative returns for every argument: the recursion for arguments below one half is at most one deep, the doubling loop stops, and the bisection stops because the error becomes small enough, or because the interval cannot shrink further and the counter of non-improving steps exceeds ten. This holds whatever values the error function returns (as long as it is at most one half at zero and reaches every value below one) and for every rounding of the arithmetic.", "quantifier": "all arguments, all functions in place of the error function, all monotone roundings to a set of multiples of a unit", "why_tests_cant": "A test checks a few arguments with one libm; whether the loop can run forever for some argument, or on a platform with other rounding, is a statement about all of them.", "anchors": ["stochasticencoder.cc:21-66"]}
{"id": "C69", "title": "Accuracy of the inverse of the cumulative normal distribution", "statement": "With an error function whose absolute error is at most 2^-50 and long double arithmetic, for every probability from 1/2 + 2^-50 to 1 - 7/10^6 the value returned by invCumulative has a true cumulative probability within 2^-19 of the argument, also when the bisection stops on the counter of non-improving steps. The same holds (within 2^-19 + 2^-60) below one half, for every probability from 1/131070 to 1 - 1/131070 that is one half or at least 1/131070 away from it.", "quantifier": "all probabilities in the range, all accurate error functions, all tolerances up to 2^-43", "why_tests_cant": "Tests compare a few values; the early stop on the counter depends on coincidences of rounding errors that tests do not reach.", "anchors": ["stochasticencoder.cc:15-66"]}
{"id": "C70", "title": "The Gaussian quantisation table in floating point is well formed", "statement": "For every number of quantities from 3 to 2^16 and every standard deviation between 2^-100 and 2^100, with an accurate error function, the Gaussian constructor ends, and the floats it stores are strictly ascending levels, ascending boundaries ending in the largest float, each level inside its own cell and NaN in the reserved slot; each level and boundary is the intended quantile within 2^-18 in probability.", "quantifier": "all table sizes, all standard deviations, all accurate error functions", "why_tests_cant": "Rounding to float could make two neighbouring levels equal, which breaks the search and the dithering; only bit counts and deviations that a test uses would be seen.", "anchors": ["stochasticencoder.cc:68-122"]}
{"id": "C71", "title": "The uniform quantisation table in floating point is well formed", "statement": "For every number of quantities from 3 to 2^16 and every standard deviation between 2^-100 and 2^100 the uniform constructor stores strictly ascending levels and ascending boundaries, each level inside its own cell, NaN in the reserved slot, and each entry differs from its exact value by at most 5/10^7 standard deviations.", "quantifier": "all table sizes, all standard deviations", "why_tests_cant": "There are 65534 sizes and 2^31 floats for the deviation.", "anchors": ["stochasticencoder.cc:97-122"]}
{"id": "C72", "title": "The truncated Gaussian quantisation table in floating point is well formed", "statement": "For every number of quantities from 3 to 2^16, every truncation from 1 to 6 standard deviations and every rms between 2^-100 and 2^100, if the GSL cumulative distribution at the truncation is accurate to 2^-50 and its inverse to 2^-40 in probability, the table computed in double and stored as float has strictly ascending levels and ascending boundaries, each level inside its own cell and NaN in the reserved slot; each entry is the intended quantile of the truncated distribution within 2^-22 in probability.", "quantifier": "all table sizes, truncations, rms values and accurate GSL functions", "why_tests_cant": "The default settings of dscompress use this table; a test sees one truncation and a few bit counts.", "anchors": ["stochasticencoder.cc:145-171"]}
{"id": "C73", "title": "Highest antenna index of a block", "statement": "MaxAntennaIndex of a block buffer is at least both antenna indices of every row, and equals one of them (or zero for a block without rows).", "quantifier": "all blocks of any length with any antenna indices", "why_tests_cant": "The antenna count sizes the metadata; a wrong value for one order of rows leads to memory errors in the antenna-frequency encoder.", "anchors": ["timeblockbuffer.h:49-57"]}
{"id": "C74", "title": "With a static seed the encoded bytes do not depend on thread timing", "statement": "A column with one encoder thread writes its blocks in the order in which they were stored, whenever they are stored in ascending order; so a program that puts all rows in order and in whole blocks and closes the column gives, under every interleaving of client and encoder thread, block bytes that are one fixed function of the rows and of the initial generator state. If a later block is put before an earlier one, the bytes do depend on the interleaving. With the static seed a column has one encoder thread; otherwise between one and eight, and not more than processors.", "quantifier": "all schedules, all numbers of rows and blocks, all encoders with a generator state", "why_tests_cant": "The order depends on when the encoder thread wakes up; a test that repeats a run sees the same interleaving almost always.", "anchors": ["dyscodatacolumn.cc:64-95", "dyscodatacolumn.cc:107-115", "threadeddyscocolumn.cc:299-345"]}
{"id": "C75", "title": "Creation of columns and copies of a manager", "statement": "After any sequence of column requests and seed settings the columns of a manager are exactly the accepted requests in order: a float WEIGHT_SPECTRUM makes a weight column, a complex column of another name a data column with the seed setting of that moment, and every other request is refused and leaves the manager as it was. A clone has all settings, including the seed, and no columns, rows or blocks; a manager made from the specification record never has the static seed.", "quantifier": "all sequences of requests, all managers", "why_tests_cant": "The refusals and the moment at which the seed is taken over depend on the order of calls.", "anchors": ["dyscostman.cc:54-69", "dyscostman.cc:307-345", "dyscostman.h:125", "dyscodatacolumn.h:43-48"]}
{"id": "C76", "title": "The stopwatch measures the time during which it runs", "statement": "For every sequence of Start, Pause and Reset calls at any clock values the stopwatch shows the sum of the times between calls after which it was running, counted from the last Reset; starting twice or pausing twice changes nothing; with a clock that does not go back the result is not negative. Seconds gives that time cut to whole milliseconds.", "quantifier": "all call sequences and clock values", "why_tests_cant": "Tests of a stopwatch use one or two intervals.", "anchors": ["stopwatch.cc:27-63", "stopwatch.cc:153-161"]}
{"id": "C77", "title": "The short text of the stopwatch", "statement": "The minutes text and the texts for seconds and below denote the measured time within half of the last shown unit, and the minutes text shows less than 60 seconds. The hours and days texts do not: their second number is the whole time instead of the remainder, so they exceed the time by the shown whole hours or days (5400 s gives 1h90m). The unit with which the text begins is days, hours, minutes, seconds or milliseconds according to the time. Times below a millisecond are shown as 0ns and microseconds are never shown.", "quantifier": "all times", "why_tests_cant": "A wrong remainder shows only in texts of times above an hour, which unit tests avoid.", "anchors": ["stopwatch.cc:65-151"]}
{"id": "C78", "title": "Row-frequency round trip in float arithmetic", "statement": "With float and double rounding as in the code, a component of a visibility that is encoded with row-frequency normalisation and decoded again differs from the original by at most the quantiser's error times the row factor and the relative brightness of its channel, plus a rounding term of 2^-21 of the row maximum times that brightness and a few smallest floats; a row and polarisation that is zero everywhere comes back as zero.", "quantifier": "all blocks, all quantisation tables with levels in [-L, L], with and without dithering, row maxima up to 2^127", "why_tests_cant": "The double scaling combines four rounded factors, of which the channel factor may underflow in float; samples do not bound the error.", "anchors": ["rftimeblockencoder.cc:16-67", "rftimeblockencoder.cc:69-146"]}
{"id": "C79", "title": "The quantisers a data column can have are fit for the round trip", "statement": "For every bit count from 2 to 16, the encoder that DyscoDataColumn::Prepare builds for a uniform, a Gaussian or a truncated Gaussian distribution (truncation 1 to 6) has a well-formed table of floats, whose lowest level is nearly the opposite of the highest, and whose neighbouring levels have a bounded distance. The table does not depend on the previous contents of the memory. With row or row-frequency normalisation, a value read back from the file differs from the written one by at most the row maximum (times the channel bound) times 3/N + 2.5e-6 for uniform quantisation with N levels, and 25/N + 1/80000 for the default truncated Gaussian with truncation 2.5 and at least 8 bits, plus rounding.", "quantifier": "All bit counts 2..16, all truncations in [1,6], all memory contents, all runs, data and read orders; library functions within a stated accuracy.", "why_tests_cant": "The bound joins the quantisation tables, the normalisation, the packing and the file layout; a test sees some data with some bit counts.", "anchors": ["dyscodatacolumn.cc:31-49", "stochasticencoder.cc:68-171", "stochasticencoder.h:40-60"]}
{"id": "C80", "title": "Antenna-frequency normalised data come back with a bounded error in float arithmetic", "statement": "With the double arithmetic of AFTimeBlockEncoder and the float metadata it stores, let N be the number of iterations that the longest fitting loop takes; encode ends if and only if N iterations are allowed, and its result does not depend on a larger limit. If N is at most two million, every counted cross-correlation whose stored channel and antenna factors are normal floats, and for which largest level times factors does not overflow, is decoded with an error of at most the quantiser's error times the stored factors, plus a relative error of (N+6)/12000000, plus an underflow term. The relative error grows with N because the metadata are rounded to float at every adjustment.", "quantifier": "All blocks of floats with any antennas, all tables of an accurate quantiser, any square root function, any number of iterations up to two million; normalised components zero or between 2^-300 and 2^300.", "why_tests_cant": "The bound is about the accumulation of rounding errors over an unknown number of adjustments; a test sees the error of one block.", "anchors": ["aftimeblockencoder.cc:6-11", "aftimeblockencoder.cc:81-98", "aftimeblockencoder.cc:123-329", "aftimeblockencoder.cc:400-439"]}
{"id": "C81", "title": "Antenna-frequency encoding is free of undefined behaviour, and non-finite samples come back as NaN", "statement": "For any contents of the block (also NaN, infinities, zeros), any arithmetic and any square root function, AFTimeBlockEncoder's encode stays inside its buffers during any number of iterations of the fitting loops. Whenever it ends, every row can be decoded, and every NaN or infinite component of an auto- or cross-correlation comes back as NaN.", "quantifier": "All blocks, all antenna pairs below the antenna count, all rounding functions, all iteration counts.", "why_tests_cant": "NaN and infinity pass through sums, maxima and quotients that also touch the other samples; tests try some positions.", "anchors": ["aftimeblockencoder.cc:123-329", "aftimeblockencoder.cc:340-439", "timeblockencoder.h:16-28"]}
{"id": "C82", "title": "Antenna-frequency encoding of data of moderate range ends", "statement": "If every component of the samples without NaN or infinity is zero or has a magnitude between 2^-40 and 2^40, and no cross-correlation has a finite real part and a NaN imaginary part, then after the normalisation of AFTimeBlockEncoder in double arithmetic all components of counted cross-correlations are zero or between 2^-300 and 2^300; so the fitting loops end, and encode gives one result for every sufficiently large iteration limit.", "quantifier": "All blocks of such data with any antennas, up to 16384 antennas, 2^24 rows and 2^24 rows times channels; any square root function that keeps the order with powers of four, in particular the correctly rounded one.", "why_tests_cant": "An endless loop or an overflow in the iterated RMS values needs particular ratios between antennas; tests use random data of one magnitude.", "anchors": ["aftimeblockencoder.cc:123-329", "aftimeblockencoder.cc:264-398", "timeblockencoder.h:16-28"]}
{"id": "C83", "title": "Antenna-frequency normalised data read back from the file have a bounded error", "statement": "A column with the default (antenna-frequency) normalisation is filled with data of moderate range, closed and reopened: every row can be read in any order; non-finite components are NaN; and if the fit of the block took N <= 2000000 iterations, every finite component of a counted cross-correlation whose stored channel and antenna factors are normal floats differs from the written value by at most one distance between levels times the product of these factors, plus |value| (N+6)/12000000, plus an underflow term. For the quantisers that Prepare builds the distance is at most 5/2 (3/(n-1) + 2.5e-6) with uniform and 5/2 (25/(n-1) + 1.25e-5) with truncated Gaussian quantisation with n levels.", "quantifier": "All runs of the encoder threads, all data with components zero or between 2^-40 and 2^40 in magnitude, all read orders, all bit counts, all dithers; at most 2^14 antennas, 2^24 rows and rows times channels per block.", "why_tests_cant": "It joins the fitting loops, float metadata, quantisation, packing and file layout; a test sees some data with some bit counts.", "anchors": ["aftimeblockencoder.cc:123-439", "dyscodatacolumn.cc:31-61", "threadeddyscocolumn.cc:79-123", "threadeddyscocolumn.cc:272-294"]}
{"id": "C84", "title": "Dithered quantisation in float arithmetic is unbiased up to 2^-22 of a step", "statement": "With every operation of EncodeWithDithering rounded to float and the dither value converted to float, the mean of the decoded value over all 2^31 dither values differs from a float value inside the table by at most 2^-22 of the distance between the two enclosing levels. For a value equal to a level other than the lowest the mean is lower by exactly 2^-25 of the distance to the level below. The quantisers that Prepare builds for uniform and for truncated Gaussian data meet the conditions.", "quantifier": "All ascending tables of floats up to 2^90, all float values above the lowest and up to the highest level, all dither values; all bit counts of C79.", "why_tests_cant": "The bias is 2^-22 of a step; a test would need more than 10^13 samples to see it above the quantisation noise.", "anchors": ["stochasticencoder.h:103-123", "stochasticencoder.cc:68-171", "aftimeblockencoder.h:85-88"]}
{"id": "C85", "title": "Updating a reopened column in place has the effect of a program without threads", "statement": "A table with N blocks is reopened and rows of these blocks are read and overwritten in any order, where a put goes to the block in memory or to a block not put before (in particular: every row is read before it is put). Under every schedule of client and encoder threads the column can be closed, and the results of the reads and the blocks in the file are those of a program that has one block in memory and writes it back when it moves to another, for whatever each encoding of a block makes of its values (encoding draws random numbers). In values: every read returns, and the file holds at the end, the last value put to the row, or the old value, up to one encoding for each time its block was brought into memory; with lossless encoding exactly.", "quantifier": "All numbers of blocks, rows per block, threads and cache sizes, all programs of reads and puts of the stated form, all schedules, all values.", "why_tests_cant": "The orders in which encoder threads and client can interleave grow exponentially with the program; a test sees some of them.", "anchors": ["threadeddyscocolumn.cc:38-42", "threadeddyscocolumn.cc:79-219", "threadeddyscocolumn.cc:299-345"]}
{"id": "C86", "title": "A new block begins empty only if the block before it was changed", "statement": "A put to a block beyond the file begins that block with an empty buffer if the block in memory was changed (it is stored first). If the block in memory was only read, the new block begins with the decoded rows of that block, and rows that are not put afterwards are written with the data of another time block.", "quantifier": "All reachable states, all rows and values.", "why_tests_cant": "Tests put all rows of a block; the old rows show only if a block is left incomplete after a read.", "anchors": ["threadeddyscocolumn.cc:79-104", "threadeddyscocolumn.cc:146-167", "threadeddyscocolumn.cc:203-213"]}
{"id": "C87", "title": "Each column of a storage manager behaves as if it were alone", "statement": "In a storage manager with any number of columns, under every schedule of the client and of the encoder threads of all columns, the state of each column is one that this column also reaches alone, by its own puts, gets and closing in program order, where the initialisation by another column is the only effect of the others on it (and the number of blocks in the file).", "quantifier": "All numbers of columns, threads per column and cache sizes, all programs of puts and gets to the columns and closing, all schedules.", "why_tests_cant": "A test runs one program under one schedule; interference between columns depends on both.", "anchors": ["dyscostman.cc:111-118", "dyscostman.cc:261-282", "threadeddyscocolumn.cc:79-345"]}
{"id": "C88", "title": "The rows per block are fixed and the header is written while no block is being written", "statement": "From the first put of another time until the header is written, the write cache of every column is empty and no encoder thread of any column encodes or writes a block, although the threads of earlier columns already run. So the header is written to the shared stream alone, without the mutex, and initialising a column never raises the exception of stopThreads.", "quantifier": "All numbers of columns and threads, all programs, all schedules.", "why_tests_cant": "A race on the stream shows only if a thread writes at the very moment of the header.", "anchors": ["dyscostman.cc:178-211", "dyscostman.cc:261-282", "threadeddyscocolumn.cc:249-269"]}
{"id": "C89", "title": "A storage manager with several columns does not deadlock and comes to an end", "statement": "With at least one thread and one cache slot per column, whenever neither the client nor any encoder thread can make a step, the program is over: the caches are empty and the threads wait or have ended. The number of steps along any schedule is bounded by a number that depends on the program only, plus the number of spurious wake-ups, and from every state steps of client and threads lead to the end.", "quantifier": "All numbers of columns, threads and cache sizes, all programs, all schedules.", "why_tests_cant": "A deadlock or a livelock needs a particular schedule, and tests stop at a time limit.", "anchors": ["dyscostman.cc:111-118", "threadeddyscocolumn.cc:79-345"]}
{"id": "C90", "title": "Writing and updating tables with several columns gives the right file for every column", "statement": "If the rows of every column are put in order, with the calls of different columns interleaved in any way, and the table is closed, then under every schedule no exception is raised, the manager can always be closed, and the file then holds for every column and block exactly the rows that were put, each block written once. If a table is reopened and columns are read and overwritten in place, the reads and the file of every column are those of a program without threads for this column.", "quantifier": "All numbers of columns, rows, rows per block, threads and cache sizes, all interleavings of calls, all schedules.", "why_tests_cant": "The number of interleavings of calls, client and threads is exponential in the size of the table.", "anchors": ["dyscostman.cc:111-118", "dyscostman.cc:261-282", "threadeddyscocolumn.cc:79-345"]}
{"id": "C91", "title": "Calls on the shared stream are atomic", "statement": "Threads of any number of columns call readCompressedData, writeCompressedData and nBlocksInFile, each of which seeks on the one shared stream and then reads or writes. Under every schedule of the single steps, the file, the block count, the state of the stream and all results are those of the calls made one after another, in the order in which they return, and each thread's calls are in its order. The same holds with header writes, which do not take the mutex, if no other call is under way meanwhile. No thread waits for ever for the mutex.", "quantifier": "All numbers of threads, all sequences of calls, all managers and file contents (also after I/O errors), all schedules.", "why_tests_cant": "A seek of another thread between seek and write is a matter of a few instructions.", "anchors": ["dyscostman.h:239-242", "dyscostman.cc:178-211", "dyscostman.cc:413-445"]}
{"id": "C92", "title": "Removing a column while another column is being written can destroy the header", "statement": "removeColumn writes the header without the mutex of the stream. For every manager and every block written at that time by an encoder thread there is a schedule after which the block is at the beginning of the file in place of the header, the header is after it, and the place of the block is as before; no error is reported.", "quantifier": "All managers without I/O error, all blocks, columns and data.", "why_tests_cant": "The schedule needs a seek of the client between seek and write of the encoder thread.", "anchors": ["dyscostman.cc:178-211", "dyscostman.cc:399-411", "dyscostman.cc:432-445"]}
{"id": "C93", "title": "The bytes in the file follow the threads of all columns", "statement": "Several columns of a new table are written by a client while the encoder threads of all columns run. At every moment of every schedule, the manager with its file is what a list of block writes and reads on a freshly laid out table gives; for each column this list contains exactly the blocks that its threads have written, in that order, each as bytes that the encoder of the column can give for these rows with some random numbers and some old buffer contents. Before the header is written nothing is in the file. The number of blocks by which columns decide whether a block exists is that of the manager.", "quantifier": "All numbers of columns and threads, all programs of puts, gets and closes, all encoders, all schedules including spurious wake-ups.", "why_tests_cant": "The order in which the bytes of columns arrive differs from run to run.", "anchors": ["threadeddyscocolumn.cc:184-247", "threadeddyscocolumn.cc:272-344", "dyscostman.cc:260-283", "dyscostman.cc:413-445"]}
{"id": "C94", "title": "The layout is that of the first time block", "statement": "When the rows of a new table are written in order, the header is written once, with rows per block equal to the number of rows of the first time block and an antenna count of one more than the largest antenna index of that block, whichever column starts the second block first and whatever the encoder threads of other columns do meanwhile.", "quantifier": "All numbers of columns, all orders in which columns are written, all schedules.", "why_tests_cant": "Depends on which column is the first to see the second time block.", "anchors": ["threadeddyscocolumn.cc:184-202", "dyscostman.cc:260-283", "timeblockbuffer.h:49-56"]}
{"id": "C95", "title": "Reopening finds all blocks of a table written by several columns", "statement": "The number of blocks of an existing file is computed from its length, so a file that ends before the last column's part of the last block would lose that block. After a table of which every row of every column was written is closed, the last column has written its part of the last block, each column has written each block of the table once and no other block, and the encoder threads of each column ran as if the column were alone.", "quantifier": "All numbers of columns and threads, all orders in which columns are written, all schedules.", "why_tests_cant": "The last block of the last column is written by a thread that may be delayed until closing.", "anchors": ["dyscostman.cc:66-98", "dyscostman.cc:111-118", "dyscostman.cc:432-445", "threadeddyscocolumn.cc:38-71"]}
{"id": "C96", "title": "A whole table with data and weights is read back after it is closed", "statement": "A table with any number of data and weight columns is written in order by a client while all encoder threads run, closed, and opened again. Opening and preparing succeeds, and every row of every column can be read in any order and any number of times: weights are the smallest of the polarisations with half a quantisation step of error relative to the largest of the block; components of visibilities that are not finite are NaN; other visibilities have errors bounded by the level distance of the quantiser times the largest component of the row (row normalisation), of the row and polarisation (row-frequency normalisation), or the product of the stored channel and antenna factors (antenna-frequency normalisation, cross-correlations).", "quantifier": "All numbers of columns, threads, rows and blocks (at least two blocks; the last may be incomplete, and then the complete blocks are read), all bit counts, all quantisers whose table is fit for use (C79), all random numbers, all schedules, all orders of reads; weights not negative; data at most 2^126, or of moderate range with antennas that occur in the first block for antenna-frequency normalisation.", "why_tests_cant": "Involves every layer from threads to bytes at once.", "anchors": ["threadeddyscocolumn.cc:73-344", "dyscostman.cc:111-445", "dyscodatacolumn.cc:10-77", "dyscoweightcolumn.cc:8-35"]}
{"id": "C97", "title": "Writing a whole table always comes to an end", "statement": "Writing a table as in the previous property never gets stuck: in every state that any schedule leads to, either the table is closed or the client or some encoder thread can go on (in particular every encoder returns for the blocks that it is given, which are whole blocks of the table), and from every such state the table can be closed.", "quantifier": "As for the previous property.", "why_tests_cant": "A hang needs an unlucky schedule or a block for which the fitting does not converge.", "anchors": ["threadeddyscocolumn.cc:38-71", "threadeddyscocolumn.cc:106-135", "threadeddyscocolumn.cc:272-344", "aftimeblockencoder.cc:140-262"]}
{"id": "C98", "title": "Loading a block while threads write gives the rows of its latest stored bytes", "statement": "A table that exists in a file is opened and rows are read and overwritten in several columns while the encoder threads of all columns run. Whenever a column loads a block, the bytes that it reads from the shared file are those of the last write of that block of that column (or those that were there when the table was opened), whole and unmixed with other columns, and decoding them gives the rows with which the column goes on. The number of blocks never changes and the header is not rewritten.", "quantifier": "All numbers of columns and threads, all programs that do not go back to put in a block that was put before, all encoders, all old buffer contents, all schedules including spurious wake-ups.", "why_tests_cant": "A load must race with the write of the same block by another thread.", "anchors": ["threadeddyscocolumn.cc:79-104", "threadeddyscocolumn.cc:106-135", "threadeddyscocolumn.cc:272-344", "dyscostman.cc:413-445"]}
{"id": "C99", "title": "A table stays a table through creating, reopening, updating and reading", "statement": "After a table with data and weight columns is created, written and closed, its file holds blocks whose rows are the written rows with the errors of the compression. Closing and opening such a file succeeds and changes nothing. A session in which rows are read and overwritten never fails, and when it is closed the file is again such a file: the blocks of each column, and all rows that were returned, are those of a program without threads or cache that keeps one block in memory and stores a changed block as the rows that its encoded bytes decode to; blocks that were not put stay exactly as they were. Rows can then be read in any order and have the values of these blocks. So this holds for any number of sessions.", "quantifier": "All numbers of columns, threads, rows, blocks and sessions, all schedules; rows that are put have all visibilities and the antennas of the table, weights are not negative and finite; programs as in C85.", "why_tests_cant": "Bugs need a sequence of sessions on the same file.", "anchors": ["threadeddyscocolumn.cc:73-344", "dyscostman.cc:111-118", "dyscostman.cc:213-258", "dyscostman.cc:285-371", "dyscostman.cc:399-445", "dyscodatacolumn.cc:10-77", "dyscoweightcolumn.cc:8-35"]}
{"id": "C100", "title": "An update of a table always comes to an end", "statement": "A session on an existing table with row or row-frequency normalisation never gets stuck: in every state that any schedule leads to, either the table is closed or the client or some encoder thread can go on, and from every such state the table can be closed. What any stored bytes decode to can be encoded again, also when the stored bytes are those of an update.", "quantifier": "As for the previous property, without antenna-frequency normalisation.", "why_tests_cant": "A hang needs an unlucky schedule or rows for which encoding fails after decoding.", "anchors": ["threadeddyscocolumn.cc:38-71", "threadeddyscocolumn.cc:79-135", "threadeddyscocolumn.cc:272-344"]}
{"id": "C101", "title": "Rows that are overwritten in an existing table are read back with the error bounds of the compression", "statement": "In a session on an existing table, with threads and cache, consider the last time that rows of a block of a column are put: some calls that are all for this block and contain a put, and after which no row of the block is put. When the table is closed, the block in the file was encoded once from rows that have the last values put in these calls, and in the other rows the values the block had in memory; what is read after reopening differs from these rows by at most the error bound of the normalisation (half a step of the largest weight for weights; a level distance times the row, row-polarisation or antenna-frequency scale for data), for every column of the table, every schedule and every outcome of dithering. In particular this holds for a block of which all rows are put.", "quantifier": "all tables of data and weight columns, all bit counts, the three normalisations, all schedules of the encoder threads, all programs of gets and puts, all draws", "why_tests_cant": "The bound after an update depends on which block the cached writer stored last, and from which rows; a test sees one schedule and one draw.", "anchors": ["threadeddyscocolumn.cc:79-104", "threadeddyscocolumn.cc:146-219", "threadeddyscocolumn.cc:272-296", "dyscodatacolumn.cc:52-62", "dyscodatacolumn.cc:88-94", "dyscoweightcolumn.cc:15-35"]}
{"id": "C102", "title": "dscompress moves exactly the flagged data, or refuses, or breaks", "statement": "For a table that holds a measurement set (columns of the right types, free temporary names, columns not yet stored by DyscoStMan), the whole main part of dscompress does one of the following, decided by the flags and the ordering of the rows alone. If every sample has a flag and the ordering check passes, it finishes after a definite number of calls: every named column is then a column of the new manager under its old name, its rows were put once each and in order, with NaN in place of exactly the flagged samples, the temporary columns are gone, and all other columns are unchanged. If the check throws, the program ends with the exception after the flagged samples were already overwritten, and nothing else was changed. If a row has fewer flags than samples, or the check reads out of bounds, the behaviour is undefined.", "quantifier": "all tables, measurement sets, column lists without duplicates and any number of rows and samples", "why_tests_cant": "Tests compress one measurement set; they do not show that every irregular one is refused in this state, that nothing else is touched, or where the flags run out.", "anchors": ["dscompress.cc:230-367", "stmanmodifier.h:34-150"]}
{"id": "C103", "title": "The manager made column by column is the one of the whole table", "statement": "dscompress creates the DyscoStMan with the first column and adds the other columns one by one, each time writing a header. Once the first block fixes the layout, the manager and every byte of its file are the same as for a table created with all columns at once, and every run of client and threads from the one is a run from the other.", "quantifier": "all settings with bit counts that are not zero, all lists of columns, all numbers of rows, polarisations and channels, and all schedules", "why_tests_cant": "The intermediate headers are overwritten; no test compares the files byte for byte for all ways to add columns.", "anchors": ["dscompress.cc:13-65", "dyscostman.cc:178-282", "dyscostman.cc:300-376"]}
{"id": "C104", "title": "dscompress end to end: what is read after compressing a measurement set", "statement": "If the ordering check passes and there are at least two blocks, then for the manager that dscompress makes and the rows that it puts, every schedule of the encoder threads can be continued until the table is closed, none gets stuck before, and the closed file can be opened; the settings found in it are those given, and with the quantiser made from these settings every row of every column is then read back within the error bound of its normalisation and distribution, in any order, and every flagged sample is read as NaN. The block size is the one that the check found.", "quantifier": "all measurement sets that pass the check, any number of columns, rows, polarisations and channels that the format can hold, any number of threads, any schedule; the error bounds are in terms of the precision of the quantiser (largest distance between levels, largest level), for every quantiser whose table is fit for use", "why_tests_cant": "A test runs one schedule on one measurement set; the claim joins the program, the manager, the threads, the encoders and the file format for all of them.", "anchors": ["dscompress.cc:13-65", "dscompress.cc:230-367", "threadeddyscocolumn.cc:181-260", "dyscostman.cc:178-300", "dyscodatacolumn.cc:1-160", "stmanmodifier.h:34-150"]}
{"id": "C105", "title": "Compressing and decompressing returns the measurement set within the compression error", "statement": "After dscompress, decompress on the table opened later finishes: both columns DATA and WEIGHT_SPECTRUM are stored by the default manager again, every row holds the values that were read for that row from the compressed file, hence values within the error bound of C104 (and NaN for flagged samples), and all other columns are unchanged.", "quantifier": "all tables as in C104 with both columns, any rows", "why_tests_cant": "A test compares one measurement set before and after with a tolerance; it does not show that every row is returned for every table and schedule.", "anchors": ["decompress.cc:6-31", "stmanmodifier.h:34-150", "dscompress.cc:230-367"]}
{"id": "C106", "title": "Shutting a column down more than once is harmless; writing after it is not", "statement": "The destructors of the manager, the derived column and the base class all call shutdown. After a first shutdown has returned, a further one finishes without waiting and changes nothing in the column, its cache or the file. Rows of blocks other than the one last in memory can still be read and are those of the last store. A row put after shutdown is never written: the file does not change and the next shutdown raises an exception. (Reading a row of the block that shutdown itself stored is undefined behaviour: the buffer is empty and the block still counts as loaded.)", "quantifier": "all reachable closed states of a column, all thread counts, programs and schedules", "why_tests_cant": "Tests destroy a table object a few times; they cannot show that none of the repeated calls waits, throws or writes for any state and schedule.", "anchors": ["threadeddyscocolumn.cc:38-71", "threadgroup.h:33-51", "dyscostman.cc:111-119", "dyscodatacolumn.h:37", "dyscoweightcolumn.h:31"]}
{"id": "C107", "title": "A reader decodes with the settings that it finds in the file", "statement": "Opening the file of a closed table gives back the manager that wrote it, with its name, bit counts, distribution, normalisation, degrees of freedom, truncation and column layout; only the number of rows comes from the table. The quantiser that the reader makes from these settings decodes every symbol like the one of the writer, whatever the memory that their tables are built in contained before (also the symbol for NaN, which lies past the size of the table), and with it every row of every column is read back.", "quantifier": "all tables written by any number of columns and threads in any schedule; all quantisers whose table is fit for use (C79)", "why_tests_cant": "A test reads files with the program instance that wrote them or with one library version; it does not vary the contents of uninitialised memory or all settings.", "anchors": ["dyscostman.cc:178-300", "dyscostman.cc:351-376", "dyscodatacolumn.cc:10-49", "stochasticencoder.cc:68-171"]}
{"id": "C108", "title": "Every distribution of dscompress has a usable quantiser, but Student's t is coarse", "statement": "For every distribution that can be chosen (uniform, Gaussian, truncated Gaussian with any truncation from 1 to 6, and Student's t, always with one degree of freedom because dscompress has no option for it) and every bit count from 2 to 16, the manager makes a quantiser whose table is fit for use and has a definite precision, so that the end-to-end error bounds apply. For Student's t the largest level is at most the number of levels, and neighbouring levels are at most 4/5 of the largest level apart (11/10 with 2 bits). More is not possible: with any number of bits, two thirds of the largest level is at least 3/10 of the largest level away from every level.", "quantifier": "all options with 2 to 16 bits, all contents of the memory; library functions within a stated accuracy in terms of probability", "why_tests_cant": "Tests use one distribution with one bit count; the coarseness for large values does not go away with more bits.", "anchors": ["dyscodatacolumn.cc:31-49", "stochasticencoder.cc:68-171", "dscompress.cc:30-50", "dscompress.cc:340-360"]}
{"id": "C109", "title": "The settings on the command line of dscompress are the settings in the file", "statement": "Numbers of bits on the command line are read as C does: leading spaces and zeros are skipped, what follows the digits is ignored, a negative number -k stands for 2^32-k, and an argument that does not begin with a number stands for 0. For every command line that consists of complete options and a path, dscompress compresses the given columns (DATA if none is given), and the manager it makes has, for the bits of data and weights, the distribution, its truncation and the normalisation, the last value that was given, or else the documented default (8, 12, truncated Gaussian, 2.5, AF). With zero bits the column cannot be made and an exception results. After a complete run, the manager that is read from the file has these settings too.", "quantifier": "all lists of options with any values, all paths, all numbers that fit an int; for the file: all regular measurement sets of at least two blocks, all schedules of the threads; any truncation, as bits of a double", "why_tests_cant": "Tests run a few command lines; repeated options, spaces, signs and trailing characters are not tried, and the settings in the file are not read back.", "anchors": ["dscompress.cc:15-65", "dscompress.cc:135-182", "dyscostman.cc:15-32", "dyscostman.cc:182-260"]}
{"id": "C110", "title": "Antenna-frequency normalisation loses autocorrelations without cross-correlations", "statement": "When every cross-correlation of a block is flagged (its real part is not finite) or zero, or there is none, the antenna-frequency encoder still ends after one iteration of its fit, without undefined behaviour, and every row can be decoded. But all information is lost: the antenna factors shrink by a factor of five in each of the 100 iterations and are stored as zero, every non-zero component of a complete sample is decoded as NaN, and zero as zero.", "quantifier": "all numbers of rows (up to 2^24), channels, polarisations and antennas; all data whose finite components are zero or between 2^-40 and 2^40; all quantiser tables; with and without dithering; all dither values; any square root that is exact on zero, passes NaN on and does not leave the square roots of powers of four; IEEE single and double arithmetic", "why_tests_cant": "The test suite skips autocorrelations with this normalisation, and its blocks always have cross-correlations. The loss comes from 100 iterations of rounding in double and a conversion to float, for any data, so that one example does not show it is general.", "anchors": ["aftimeblockencoder.cc:123-262", "aftimeblockencoder.cc:264-329", "aftimeblockencoder.cc:340-398", "timeblockencoder.h:10-40"]}
{"id": "C111", "title": "Antenna-frequency normalisation removes antennas that are much weaker than the others", "statement": "When the antenna-frequency normalisation gives an antenna (in a polarisation) or a channel the factor zero or NaN, that factor is stored as zero or NaN through the whole fit, and every sample of that antenna or channel is decoded as zero or NaN, whatever its value was. This happens to usable data: in a block of three antennas whose baselines are 1, 2^-30 and 2^-30, the encoder ends without undefined behaviour and the two weak baselines are not recovered, with any quantiser.", "quantifier": "all numbers of rows, channels, polarisations and antennas; all data, all quantiser tables, with and without dithering; all dither values; any arithmetic that keeps zero; for the concrete loss: all quantiser tables, IEEE single and double arithmetic", "why_tests_cant": "The test suite uses antennas of comparable strength. The loss depends on the threshold in the iteration of the antenna factors and passes through the fit and three conversions.", "anchors": ["aftimeblockencoder.cc:264-329", "aftimeblockencoder.cc:123-262", "aftimeblockencoder.cc:340-398", "aftimeblockencoder.cc:413-439"]}
{"id": "C112", "title": "The NaN after the end of the decode dictionary survives moving the encoder, but not copying it", "statement": "The encoder constructors, run on memory, write only inside the memory they allocated (the NaN for non-finite values goes after the end of the decode dictionary, in reserved memory) and give exactly the tables of the table model; undefined behaviour occurs in the same cases. When an allocation fails they throw and release everything. An encoder moved through any number of temporaries (factory functions, new) behaves the same, and the NaN is still found. A copied encoder has the same levels, but decoding a non-finite symbol with it reads outside its memory.", "quantifier": "all quantiser sizes of at least two levels, all quantile functions, all contents of the uninitialised memory, any state of the heap, any pattern of failing allocations, any number of moves (none with copy elision)", "why_tests_cant": "An out-of-bounds read of one float usually returns some value; whether a move or a copy is made depends on the compiler and language version; allocation failures are not tested.", "anchors": ["stochasticencoder.cc:68-171", "stochasticencoder.h:45-60", "stochasticencoder.h:143-153", "dictionary.h:13-24", "dictionary.h:173-190", "dyscodatacolumn.cc:30-49", "uvector.h:162-194", "uvector.h:357-367"]}
{"id": "C113", "title": "dscompress keeps every column, whatever the arguments and the table", "statement": "For any table and any list of columns (missing, of another type, already compressed, named twice, named together with its TEMP_ name, or with a TEMP_ name in use), stopped at any point: when the tool throws or is stopped, every column of the table is still present unchanged under its own name or under a name with TEMP_ in front one or more times, or it is one of the named columns and was copied entirely. When the tool finishes, either every named column was already compressed and the table is unchanged, or the names are distinct, every column existed uncompressed with the right type and a free temporary name, its new column received every row once in order, the temporary columns are gone, and nothing else changed. A column named twice, or together with its TEMP_ name, is never compressed.", "quantifier": "all tables, all column lists, all points at which the program is stopped, all ways in which a manager may return values", "why_tests_cant": "A test runs the tool with a few column lists on one table; what is left behind after an exception in the second loop depends on the combination of names and on which of them exist.", "anchors": ["dscompress.cc:330-367", "stmanmodifier.h:34-38", "stmanmodifier.h:92-135", "stmanmodifier.h:163-171"]}
{"id": "C114", "title": "decompress keeps every column, whatever the table", "statement": "For any table, stopped at any point: when the tool throws or is stopped, every column of the table is still present unchanged under its own name, or it is DATA or WEIGHT_SPECTRUM and is present under its temporary name or was copied entirely. When the tool finishes, both columns existed with their types, each that DyscoStMan stored has been moved to the default manager with every row, the temporary columns are gone, nothing else changed, and the result tells whether something was moved.", "quantifier": "all tables (columns missing, of another type, or with a temporary name in use), all points at which the program is stopped, all ways in which a manager may return values", "why_tests_cant": "Tests use complete tables; the state left behind by an exception halfway is not looked at.", "anchors": ["decompress.cc:13-24", "stmanmodifier.h:49-79", "stmanmodifier.h:123-135", "stmanmodifier.h:163-171"]}
{"id": "C115", "title": "Only complete blocks with known antennas can be encoded", "statement": "Encoding a block reads every value of every row of the block buffer. If a row of it was never put (or has fewer values than polarisations times channels) the encoder reads outside the row, for every normalisation and for weights; with antenna-frequency normalisation it also reads outside an array if an antenna of a row is not below the antenna count of the column. That count is taken from the first time block, so a table in which an antenna first occurs in a later block has no defined execution that closes it.", "quantifier": "all blocks, shapes, encoders, random numbers and buffer contents; for the table: all programs of the client and all schedules of the threads", "why_tests_cant": "Reading a little outside a vector often gives no visible error; the tests use the same antennas in all blocks and put every row.", "anchors": ["threadeddyscocolumn.cc:198", "threadeddyscocolumn.cc:272-294", "aftimeblockencoder.cc:264-329", "rowtimeblockencoder.cc:38-80", "rftimeblockencoder.cc:15-105", "weightblockencoder.h:40-68", "timeblockbuffer.h:30-38"]}
{"id": "C116", "title": "Packing keeps the first symbols whatever follows them", "statement": "For each supported bit count b, packing n arbitrary 32-bit symbols of which the first k are below 2^b stays inside the buffers, and unpacking gives back these k symbols exactly; everything that is unpacked is below 2^b. So the unassigned rest of the symbol buffer, when a block has fewer rows than the buffer has room for, cannot damage the rows that were encoded. (A symbol that is too large can damage those after it.)", "quantifier": "every supported bit count, every n and k ≤ n, all values of the symbols after the first k, all old contents of the buffers", "why_tests_cant": "Unassigned memory has arbitrary values; a test sees the values that the allocator happens to give, usually zero.", "anchors": ["bytepacker.h:153-218", "bytepacker.h:220-730", "threadeddyscocolumn.cc:286-289", "threadeddyscocolumn.cc:306-307"]}
{"id": "C117", "title": "An incomplete last block keeps its rows", "statement": "The last block of a table may have fewer rows than the others. The encoder then gets fewer rows than the buffers have room for, and the rest of the symbol buffer is packed with whatever values it has. For every normalisation and for weights, the bytes that are written have the size of a full block, reading them succeeds and gives, for each row that was encoded, the same values as if the block length were that number of rows. In a table whose last block is incomplete, all complete blocks are written once from exactly the rows that were put and are read back as in C96; the incomplete block is written once with its rows first, followed by other rows only if the block was loaded from the file before.", "quantifier": "all shapes, block lengths and numbers of rows up to it, all supported bit counts, all quantisers whose table is fit for use (C79), all old contents of the buffers; for tables all numbers of columns, threads and rows and all schedules. Reading back with antenna-frequency normalisation needs antennas below the antenna count for all rows of a full block, also those that the table does not have.", "why_tests_cant": "The unassigned part of the buffers has arbitrary values and its effect depends on the packing; tests use complete blocks.", "anchors": ["threadeddyscocolumn.cc:79-104", "threadeddyscocolumn.cc:272-294", "threadeddyscocolumn.cc:306-308", "threadeddyscocolumn.cc:205-230"]}
{"id": "C118", "title": "Antenna-frequency normalisation: zeros stay zero", "statement": "A channel (of one polarisation) in which every sample of the block is zero or flagged is given the factor zero and is not divided by it; through all iterations of the fit the factor stays zero and the zeros stay zero, and they are decoded as exact zeros in every row whose two antennas have finite non-zero factors in the file. A block in which every sample is zero or flagged is encoded in one iteration of the fit and all its zeros, also those of autocorrelations, come back as exact zeros.", "quantifier": "all numbers of rows (up to 2^24), channels, polarisations and antennas (up to 2^14 for one channel); for one channel: all data in the other channels whose finite components are zero or between 2^-40 and 2^40; all placements of flagged samples; all quantiser tables; with and without dithering; all dither values; any square root that is exact on zero, passes NaN on and does not leave the square roots of powers of four; IEEE single and double arithmetic", "why_tests_cant": "The test encodes one block of zeros of one size. A zero channel beside others is not tested, and 0/0 or 0 times infinity would show as NaN only for some data in the other channels.", "anchors": ["aftimeblockencoder.cc:123-262", "aftimeblockencoder.cc:264-329", "aftimeblockencoder.cc:340-398", "tests/testtimeblockencoder.cc: TestZeroEncoding"]}
{"id": "C119", "title": "Files that cannot be opened for writing", "statement": "If the file cannot be opened for writing, opening falls back to a stream for reading only, and reopenRW does not change that. Then whatever is asked of the storage manager, the file stays as it is; a program that does not write sees exactly what it would see with a writable file; and every operation that writes bytes raises an exception. While a stream is failed, also that of a writable file, every operation that writes raises an exception and leaves the file as it is. After such an exception the stream stays failed until the last block is read, whatever else is done: reading any block before the last raises an exception too, and reading the last block reports success but leaves the buffer with what it held before (negative).", "quantifier": "all managers and files, all sequences of block reads and writes, header writes, addRow, removeRow, prepare, initializeRowsPerBlock, addColumn, removeColumn and reopenRW; all buffers", "why_tests_cant": "The tests only use writable files. A read-only file needs set-up outside the test, and the silent read after an exception needs a program that goes on after it.", "anchors": ["dyscostman.cc:178-211", "dyscostman.cc:284-305", "dyscostman.cc:378", "dyscostman.cc:399-445"]}
{"id": "C120", "title": "Quantisers are symmetric around zero", "statement": "A table made from a quantile function that is odd around one half is symmetric: level s from below is minus level s from above, and a value that is not on a boundary between two cells and its negative get mirrored symbols, so they are decoded as negatives of each other. With an even number of quantities (every number of bits gives one) zero is a level; this holds for the Gaussian and the uniform table as they are computed in long double arithmetic, even if the bisection is inaccurate. With exact fractions the computed Gaussian quantile for 1-c is exactly minus that for c, whatever the error function returns. A value on a boundary is still in the lower cell, unlike the comment of RightBoundary says (negative).", "quantifier": "all numbers of quantities from 3 (from 4 for the level zero), all odd strictly increasing quantile functions with finite values, all finite values; all cumulative distributions, error limits, standard deviations and numbers of iterations for the computed tables", "why_tests_cant": "The tests compare single values with a tolerance; an asymmetry of one symbol, which biases averages, is smaller than that.", "anchors": ["stochasticencoder.cc:21-66", "stochasticencoder.cc:68-122", "stochasticencoder.h:81-86", "stochasticencoder.h:125-136", "stochasticencoder.h:143-151"]}
{"id": "C121", "title": "Settings in the header that are not valid", "statement": "The numbers of bits, the distribution and the normalisation of a file that is opened are taken over unchecked. For every value of these four bytes it is known what opening and reading does: a data column can be read exactly with 2, 3, 4, 6, 8, 10, 12 or 16 bits, one of the three normalisations and one of the four distributions, and then the objects are those of the settings; an exception is raised exactly for no bits, or for a known normalisation and an unsupported number of bits for which the shift, if done, is defined; everything else is undefined behaviour (a null pointer is used or a shift is too large). The same for weight columns. A file with normalisation 7 and a file with distribution 9 are opened without an error and reading them is undefined (negative).", "quantifier": "all file contents that can be opened, all values of the four settings, all sets of columns, all libraries", "why_tests_cant": "The tests open only files that they wrote themselves.", "anchors": ["dyscostman.cc:213-259", "dyscostman.cc:351-376", "dyscodatacolumn.cc:8-62", "dyscodatacolumn.cc:96-105", "dyscoweightcolumn.cc:5-13", "threadeddyscocolumn.cc:80-104"]}
{"id": "C122", "title": "An exception in an encoder thread ends the program, possibly after the old data were removed", "statement": "A number of bits that cannot be packed is refused only when a block is encoded, in an encoder thread that catches nothing. Along every schedule: a block for which encoding raises an exception is never written; if a column is closed normally no such block was ever stored; and a program that puts all rows of a column of which one block raises an exception never closes the column, can always make a step and is always ended by std::terminate after a bounded number of steps. With an unsupported number of bits nothing is ever in the file, and all rows can have been put before the program is ended, so that dscompress removes the old column and the data are lost, exactly if all blocks but the last fit in the write cache (negative).", "quantifier": "all tables, numbers of threads, cache sizes, schedules with spurious wake-ups, and all sets of blocks that raise exceptions", "why_tests_cant": "The tests use supported numbers of bits; whether the data are lost depends on the timing of the threads.", "anchors": ["threadeddyscocolumn.cc:50-70", "threadeddyscocolumn.cc:146-167", "threadeddyscocolumn.cc:272-336", "bytepacker.h:153-184", "stmanmodifier.h:121-135", "dscompress.cc:332-362"]}
{"id": "C123", "title": "Rewriting the measurement set always leaves one complete table", "statement": "dscompress -reorder copies the table to the path followed by 'temp', deletes the old table and renames the copy. With any number of slashes at the end of the path, after each step the old table is under its path or the complete copy is under one of the two names, other tables are not touched, and at the end the copy is under the path and the temporary name is free. If the copy is refused, the old table stays. A table made by dscompress can be copied exactly if its distribution is not Student's t, and the copy then has the same settings, so -studentt with -reorder always ends with an exception. A table that already has the temporary name is lost (negative).", "quantifier": "all paths that are not only slashes, all contents of the disk, all options", "why_tests_cant": "The tests do not rewrite measurement sets, and do not stop between two steps.", "anchors": ["stmanmodifier.h:137-158", "dscompress.cc:364-370", "dyscostman.cc:45-157"]}
{"id": "C124", "title": "A table that is copied before it is closed can lose its last block", "statement": "dscompress -reorder copies the table while its columns are open and then removes the original. Flushing does nothing, so the last block of each column is in memory. For every column of at least two blocks whose rows are all put, and every list of rows that is read before the column is closed, there is a schedule of the encoder threads along which every row of the last block that is read gives zeros (negative).", "quantifier": "all tables of at least two blocks, numbers of threads, cache sizes, lists of rows to read", "why_tests_cant": "The tests do not copy open tables, and the result depends on the timing of the threads.", "anchors": ["dscompress.cc:364-366", "stmanmodifier.h:146-158", "dyscostman.cc:162-166", "threadeddyscocolumn.cc:107-141", "threadeddyscocolumn.cc:146-167", "threadeddyscocolumn.cc:272-294"]}
{"id": "C125", "title": "Opening a file whose header is too short", "statement": "After a read that fails, the values are indeterminate, and readHeader goes on with them until it tests the stream at the end. Whatever these values are, opening a file has the same result: the one determined by the content of the file if its first 16 bytes exist and the memory for the name can be allocated, and an exception otherwise. For a file of at most 12 bytes the number of bytes that is allocated can be any number of 32 bits (negative).", "quantifier": "all file contents of every length, all indeterminate values, all behaviours of the allocator, all managers", "why_tests_cant": "Indeterminate values cannot be chosen in a test, and the tests open only complete files.", "anchors": ["dyscostman.cc:213-259", "dyscostman.cc:284-305", "header.h:59-80", "serializable.h:116-130", "threadeddyscocolumn.cc:369-375"]}
{"id": "C126", "title": "No data races between the client and the encoder threads", "statement": "Consider the accesses to the shared variables of the manager and its columns (block count, stream, layout, rows per block, caches with their items, stop flags, random generators, settings, block buffers) by the client that puts, gets and closes, and by the encoder threads, with the mutexes that they take and release and the creation and joining of threads. On every schedule, of any two accesses of different threads to the same variable, one of which is a write, one happens before the other in the sense of the C++ standard. Adding a column while a block is being encoded, and removing one, are data races (negative).", "quantifier": "all schedules, any number of columns, threads and cache size, all programs of puts, gets and closing, new and reopened tables", "why_tests_cant": "Data races are only visible on unlucky schedules and with instrumentation; tests run few schedules, and a race that happened not to matter is undefined behaviour all the same.", "anchors": ["threadeddyscocolumn.cc:50-335", "threadeddyscocolumn.h:162-225", "dyscostman.cc:178-211", "dyscostman.cc:261-282", "dyscostman.cc:390-410", "dyscostman.cc:412-445", "dyscostman.h:239-242", "dyscostman.h:387-394", "dyscodatacolumn.cc:66-87"]}
{"id": "C127", "title": "Other threads may run in the middle of loading a block", "statement": "loadBlock takes the mutex of the manager twice, to see whether the block is in the file and to read it; encoder threads of all columns may run in between, and may add blocks. Whatever they do, whenever the client is outside loadBlock, the state (place of the client, calls left, rows per block, blocks in the file, all columns with what was stored, written and returned) is one that a program gets to for which loadBlock is a single step, with at least half as many steps; in the middle of loadBlock the same holds for files, caches, threads and histories. Nobody is blocked by the splitting, no step of the split program has more than one critical section, and it has no data races.", "quantifier": "all schedules, any number of columns, threads and cache size, all programs of puts, gets and closing, new and reopened tables", "why_tests_cant": "The interleavings in which a block appears between the test and the reading are rare and cannot be forced from outside; a test that does not hit them says nothing about them.", "anchors": ["threadeddyscocolumn.cc:77-104", "dyscostman.h:239-242", "dyscostman.cc:412-445"]}
{"id": "C128", "title": "Statement by statement, a column and its threads behave as with undivided critical sections", "statement": "Let the mutex of a column be a variable, and let every statement of the column and of its encoder threads that uses a shared variable be a step of its own, so that everybody may be interrupted anywhere, also while holding the mutex, and only continues after notify_all when it gets the mutex again. Then every schedule gives the same file, stores, writes, cache, results of reads and remaining calls as some schedule of the model in which each critical section is one step; each of those steps stands for one of the statements, made by the same client or thread, in the same order. At most one of the client and the threads is between taking and releasing the mutex. A thread never encodes or erases an item that is no longer in the cache. After closing, the file holds the last store of every block. If nobody can execute a statement all work is done, the number of statements is bounded, and all work can always be finished.", "quantifier": "all schedules of statements with spurious wake-ups and other columns, any number of threads and cache size, all programs of calls, new and reopened tables", "why_tests_cant": "A test cannot choose between which two statements a thread is interrupted; whether all such interruptions are harmless is only visible over all schedules.", "anchors": ["threadeddyscocolumn.cc:50-70", "threadeddyscocolumn.cc:122-166", "threadeddyscocolumn.cc:299-345"]}
{"id": "C129", "title": "Statement by statement, all columns of a storage manager behave as with undivided critical sections", "statement": "Let every column of a storage manager have its mutex as a variable, and let every statement of the client and of the encoder threads of all columns that uses a shared variable of a column be a step of its own, so that everybody may be interrupted anywhere, also while holding a mutex. Then every schedule gives the same files, block count, caches, stores, writes, results of reads and remaining calls as some schedule of the model in which each critical section is one step; each of those steps stands for one of the statements, by the same client or thread, in the same order. The client holds a mutex only of the column that it is in a call of, and never two. At most one holds the mutex of a column, and no thread uses an item that is not in the cache. Writing a new table and updating an existing one give the same files and results as one thread would. If nobody can execute a statement all work is done, the number of statements is bounded, and all work can always be finished.", "quantifier": "all schedules of statements with spurious wake-ups, any number of columns with any types of values, any number of threads and cache size per column, all programs of puts, gets and closing, new and reopened tables", "why_tests_cant": "A test cannot choose between which two statements a thread is interrupted, and the number of ways to do so grows exponentially with columns and threads.", "anchors": ["threadeddyscocolumn.cc:50-70", "threadeddyscocolumn.cc:122-166", "threadeddyscocolumn.cc:299-345", "dyscostman.cc:111-118", "dyscostman.cc:266-283"]}
{"id": "C130", "title": "Interrupting the calls of the storage manager makes no difference either", "statement": "Let the mutex of the storage manager and the position of the shared file stream be variables, too, and let taking the mutex, reading or raising the number of blocks, seeking, and reading or writing be steps of their own in nBlocksInFile, readCompressedData, writeCompressedData and writeHeader, for the client and all encoder threads of all columns, next to the statements of the columns. Reading and writing use the position of the stream wherever it is. Then every schedule gives the same files, caches, stores, writes, results of reads and remaining calls as some schedule in which each of these calls is one step, and the same number of blocks whenever no thread is in the manager. Whoever is about to read or write finds the position where it was set, and nothing is written in the wrong place. At most one is between taking and releasing the mutex, and nobody is in the manager or about to enter it to write while the client writes the header without the mutex. Writing a new table and updating an existing one give the same files and results as one thread would. If nobody can execute a statement all work is done and the mutex is free, the number of statements is bounded, and all work can always be finished.", "quantifier": "all schedules of statements with spurious wake-ups, any number of columns with any types of values, any number of threads and cache size per column, all programs of puts, gets and closing, new and reopened tables, any initial position of the stream", "why_tests_cant": "A seek of one thread that moves the stream before another thread writes needs an interruption between two particular statements; a test can not choose it.", "anchors": ["dyscostman.cc:173-207", "dyscostman.cc:266-283", "dyscostman.cc:407-445", "dyscostman.h:239-242", "threadeddyscocolumn.cc:79-104", "threadeddyscocolumn.cc:116"]}
{"id": "C131", "title": "Serialised records are read back, and a record that is cut off is noticed", "statement": "Any sequence of items of any kinds that serializable.h can write (integers of 8 to 64 bits, booleans, floating point numbers including long double and complex long double, strings with lengths of 32 or 64 bits), written one after the other anywhere in a stream, is read back by the corresponding functions, whatever was in memory and in the unused bytes of the long doubles; numbers are reduced to the width they are stored with. Afterwards the stream stands behind the record. If the stream has not failed after the last item then no read has failed: the values depend on the bytes of the record only. If the stream ends before the end of the record, it has failed after the last item. A string whose length does not fit in its length field comes back cut to the length modulo the width, with the stream inside the string; a string of 2^32 bytes with a length of 32 bits comes back empty. The header of a file is such a record.", "quantifier": "all sequences of items, all positions and contents of the stream, all contents of uninitialised memory", "why_tests_cant": "There are infinitely many sequences of kinds and values, most kinds are used by no class of the project, and strings of 2^32 bytes are impractical in tests.", "anchors": ["serializable.h:15-130", "header.h:41-80"]}
{"id": "C132", "title": "Damage in a stored block stays local", "statement": "A block of the announced size can be decoded whatever its bytes are, without undefined behaviour. The value that is read for a sample depends only on the bytes that hold the bits of its two symbols and the bytes of the factors that belong to it: with row normalisation the factor of its row, with row-frequency normalisation those of its channel and polarisation and of its row and polarisation, with antenna-frequency normalisation those of its channel and polarisation and of its two antennas in that polarisation. So a damaged byte of the symbols changes only the samples with bits in it, a damaged row factor only its row, and a damaged antenna factor only rows with that antenna in one polarisation. A weight depends only on the stored maximum and the bits of its row and channel.", "quantifier": "all bytes of the block, all damages, normalisations, tables, supported bit counts, block shapes and antennas below the antenna count, all earlier contents of the buffers", "why_tests_cant": "There are 256 values for every byte of a block of any size; tests read only blocks that the encoder has written.", "anchors": ["rowtimeblockencoder.cc:12-36", "rftimeblockencoder.cc:118-146", "aftimeblockencoder.cc:400-439", "dyscoweightcolumn.cc:16-27", "bytepacker.h", "threadeddyscocolumn.cc:79-104"]}
{"id": "C133", "title": "Row-normalised rows do not influence each other", "statement": "With row normalisation, the values that are read back for a row depend only on the values of that row and the dither values it gets: the same row written at any position in any other block, with any other rows, is read back with the same values. With row-frequency normalisation and with weights this does not hold: another row of the block can change what is read back.", "quantifier": "all pairs of blocks with a row in common, all positions, numbers of rows, tables, supported bit counts and dither values", "why_tests_cant": "The claim compares all pairs of blocks; a test compares a few.", "anchors": ["rowtimeblockencoder.cc:12-90", "rftimeblockencoder.cc:12-116", "weightblockencoder.h"]}
{"id": "C134", "title": "Compressing decompressed weights again changes nothing", "statement": "When weights are compressed, read back, and the values that were read are compressed again with the same number of bits, the second block has the same bytes as the first, and reading it gives the same weights. This holds when the largest weight is a normal float, or when all weights are zero. For smaller largest weights it can fail: there is a weight that moves to the next symbol.", "quantifier": "all weights that are floats, all supported bit counts, numbers of rows, channels and polarisations, all earlier contents of the buffers", "why_tests_cant": "It is a claim about two rounds of rounding in two precisions for every float; a test tries a few values, for which an error would hardly ever show.", "anchors": ["weightblockencoder.h:26-68", "dyscoweightcolumn.cc:16-35", "threadeddyscocolumn.cc:79-104", "threadeddyscocolumn.cc:272-294"]}
{"id": "C135", "title": "Multiplying by a power of two only changes the stored factors", "statement": "With row normalisation, if every row is multiplied by its own power of two and the dither values are the same, then every row with a largest value above zero has the same symbols, its stored factor is multiplied by that power of two, and so are the values that are read back, as long as factor and values are normal floats before and after; NaN stays NaN. The same holds for weights: if all are multiplied by a power of two, the symbols are the same and the stored maximum and the weights that are read are multiplied by it. With row-frequency normalisation every row and polarisation can be multiplied by its own power of two: all symbols and all channel factors stay the same, and only the row factor of that row and polarisation and the values read back change. With antenna-frequency normalisation every channel and polarisation with a finite sample other than zero can be multiplied by its own power of two: one block is written exactly if the other is, the symbols and the antenna factors are the same, and the stored channel factors and the values read back are multiplied by that power, as long as root mean square, factor and values are normal floats before and after.", "quantifier": "all values that are floats, all powers of two, tables, supported bit counts, dither values and block shapes", "why_tests_cant": "It relates pairs of whole blocks for all scales; a test would compare a few pairs.", "anchors": ["rowtimeblockencoder.cc:12-92", "rftimeblockencoder.cc:16-146", "weightblockencoder.h:26-68", "threadeddyscocolumn.cc:79-104", "threadeddyscocolumn.cc:272-294"]}
{"id": "C136", "title": "Compression keeps the order and the sign of values", "statement": "With the same dither value, a larger value never gets a smaller symbol, and a larger dither value never gives a larger symbol, although the place where the choice changes is computed in float arithmetic. So with row normalisation, components of a row that get the same dither value come back in the same order, as far as they come back as numbers, and weights come back in the same order. With row-frequency normalisation this holds for the two parts of a sample, but not for samples of different channels (negative). If zero is a level, a positive component is not read back as a negative one, nor a negative one as positive, unless it underflows when it is scaled. With different dither values the order can be reversed, and a value that underflows can change its sign (negative).", "quantifier": "all values that are floats, all dither values, tables of floats, supported bit counts and block shapes", "why_tests_cant": "Pairs of values next to a rounding boundary are the ones that could be reversed; a test does not meet them.", "anchors": ["stochasticencoder.h:103-123", "rowtimeblockencoder.cc:12-92", "rftimeblockencoder.cc:16-146", "weightblockencoder.h:26-68"]}
{"id": "C137", "title": "dscompress prints the settings that it uses", "statement": "The text that dscompress prints before it opens the measurement set describes the manager that it makes: its bits per data value, bits per weight, distribution with the truncation, and normalisation. Two runs that print the same text use the same bit counts, distribution and normalisation, and truncations with the same text.", "quantifier": "all settings, all numbers of rows, polarisations and channels, all lists of columns, every way to print a double that has no line break", "why_tests_cant": "There is a separate switch for printing and for the manager; a test would have to try every combination of settings and compare the text with the file.", "anchors": ["dscompress.cc:184-223", "dscompress.cc:15-68", "dscompress.cc:347-357"]}
{"id": "C138", "title": "Polarisations are separate, and the order in a block does not matter", "statement": "With row-frequency normalisation, the symbols, channel factors, row factors and values read back of a polarisation depend only on the values of that polarisation. With antenna-frequency normalisation the same holds for the symbols, channel factors, antenna factors and values of every block that is written; polarisation and number of polarisations may differ between the blocks, so every polarisation is stored as if it were alone, and a block is written exactly if each of its polarisations alone would be. With row normalisation this does not hold (negative). If the rows of a block are put in another order, and its channels and polarisations are put in another order, then the stored symbols and factors and the values that are read back are in that other order. With row normalisation every row may have its own order of samples. For weights any order of all samples of the block is allowed, and the stored maximum stays the same.", "quantifier": "all pairs of blocks, values including NaN and infinity, all orders, tables, supported bit counts, dither values that move with the samples, and block shapes", "why_tests_cant": "The number of orders of a block is astronomical, and a wrong index shows only for particular numbers of rows, channels and polarisations.", "anchors": ["aftimeblockencoder.cc:123-439", "rftimeblockencoder.cc:16-146", "rowtimeblockencoder.cc:12-92", "weightblockencoder.h:26-68", "threadeddyscocolumn.cc:79-104", "threadeddyscocolumn.cc:272-294"]}
{"id": "C139", "title": "A storage manager with one time block never stores anything, reads only zeros and cannot be closed", "statement": "New storage manager with any number of columns. If the rows put into each column are of one time block, then along every schedule, also with reads in between, no column ever has a block in the file and every read gives zeros, also of rows that were put. If no row was put, closing succeeds. Otherwise the manager is never closed: the columns before the first one with rows are closed, and stopThreads raises an exception for that one, in the destructor of the manager.", "quantifier": "all numbers of columns and threads, all orders of puts and reads, all schedules with spurious wake-ups", "why_tests_cant": "It is about all orders of calls on all columns and all schedules; a test with one time block sees one of them.", "anchors": ["threadeddyscocolumn.cc:38-71", "threadeddyscocolumn.cc:106-143", "threadeddyscocolumn.cc:169-219", "dyscostman.cc:111-118"]}
{"id": "C140", "title": "Dithering makes what is read back from a row-normalised block unbiased up to rounding", "statement": "A block is written with row normalisation and read back. What is read for one part of one sample depends only on the dither value of its own symbol. Its mean over the 2^31 dither values differs from the number that was written by at most 2^-22 of the largest step of the quantiser in units of the stored row factor, plus rounding of 2^-22 of the row maximum and a multiple of 2^-149. The number has to be above the lowest level by a relative rounding error. With the quantisers of C79 the bound is (r + 1) M / 2^22 plus the multiple of 2^-149, where M is the row maximum and r the relative step.", "quantifier": "all blocks, rows and samples, and all dither values of the other samples; all tables of floats; the uniform and truncated Gaussian quantisers with all supported numbers of bits", "why_tests_cant": "The mean is over 2^31 writes of the block, for every block.", "anchors": ["rowtimeblockencoder.cc:12-92", "stochasticencoder.h:94-123", "threadeddyscocolumn.cc:79-104", "threadeddyscocolumn.cc:272-294", "dyscodatacolumn.cc:66-87"]}
{"id": "C141", "title": "The generator gives every dither value equally often, so that averaging over its states removes the bias", "statement": "std::mt19937 as the C++ standard defines it. Over all states every output, at whatever position of the sequence, takes each of the 2^32 words equally often, and every sequence of 623 outputs in a row comes from exactly two of the 2^19937 states. The dither value made from an output (upper 31 bits in libstdc++, lower 31 bits in libc++) takes each number below 2^31 equally often. So for a block that is written with row normalisation by a thread that made any number of dither values before, the mean over all states of what is read for one part of one sample is the value that was written, up to the bound of C140. Different seeds give different states. With a static seed all threads of all columns start with the same state, that of the default seed 5489. If the rows of such a column are put in order and in whole blocks, then under every schedule block b is encoded with the numbers b n to b n + n - 1 of that sequence, where n is the number of symbols of a block.", "quantifier": "all states, all positions, all blocks, rows and samples; the quantisers of C79; all schedules", "why_tests_cant": "There are 2^19937 states; a test sees the sequence of one seed.", "anchors": ["dyscodatacolumn.h:20-48", "dyscodatacolumn.h:72-81", "dyscodatacolumn.cc:80-95", "stochasticencoder.h:88-90", "rowtimeblockencoder.cc:62-76"]}
{"id": "C142", "title": "Dithering makes what is read back from a row-frequency normalised block unbiased up to rounding", "statement": "A block is written with row-frequency normalisation and read back. What is read for one part of one sample depends only on the dither value of its own symbol. Its mean over the 2^31 dither values differs from the number a that was written by at most 2^-22 of the largest step of the quantiser in units of the two factors, plus rounding; with the quantisers of C79 by at most (r + 2) K M / 2^22 plus a multiple of 2^-149, where M is the maximum of the row and polarisation, K bounds the channel relative to the row maxima, and r is the relative step. The only exception are negative numbers that reach the quantiser at or below its lowest level: these are always read as the same number, which differs from a by at most (r + 2^-21) K M plus the multiple of 2^-149. The same holds for the mean over all states of the generator of C141, after any number of earlier dither values.", "quantifier": "all blocks, rows, channels, polarisations and samples, and all dither values of the other samples; all tables of floats; the uniform and truncated Gaussian quantisers whose relative step is at most 9/10; all states of the generator", "why_tests_cant": "The mean is over 2^31 writes of the block or over 2^19937 states, for every block.", "anchors": ["rftimeblockencoder.cc:16-146", "stochasticencoder.h:94-123", "threadeddyscocolumn.cc:79-104", "threadeddyscocolumn.cc:272-294", "dyscodatacolumn.cc:66-95"]}
{"id": "C143", "title": "Dithering makes what is read back from an antenna-frequency normalised block unbiased up to rounding", "statement": "A block of moderate data is written with antenna-frequency normalisation and read back. Whether it is written with a given number of iterations of the fit, and the factors that are stored, do not depend on the dither values. What is read for one part of one sample of a cross-correlation depends only on the dither value of its own symbol. Let G be the product of the three stored factors of the sample and N the number of iterations, at most 2000000. The mean over the 2^31 dither values differs from the number a that was written by at most g G / 2^22 + L G / 1600000 + |a| (N + 6) / 12000000 + (1 + G) 2^-148, where g is the largest step and L the largest level of the quantiser. The only exception are negative numbers that reach the quantiser at or below its lowest level: these are always read as the same number, which is within the error of C83 of a. For the quantisers of C79 the same holds for the mean over all states of the generator of C141, after any number of earlier dither values.", "quantifier": "all blocks of floats that are zero or not finite or between the limits of C83, with at most 2^14 antennas and 2^24 samples per polarisation; all samples of cross-correlations whose stored factors are normal floats; all dither values of the other samples; all tables of floats; the uniform and truncated Gaussian quantisers whose relative step is below 1; all states of the generator", "why_tests_cant": "The mean is over 2^31 writes of the block or over 2^19937 states, for every block.", "anchors": ["aftimeblockencoder.cc:123-439", "stochasticencoder.h:94-123", "threadeddyscocolumn.cc:79-104", "threadeddyscocolumn.cc:272-294", "dyscodatacolumn.cc:66-95"]}
{"id": "C144", "title": "Averaging removes the error of dithering", "statement": "Any 623 successive outputs of the generator, after any number of others, are independent over all its states. So when values of symbols less than 623 apart each have an error of at most e and a mean error of at most b, the mean square error of their average is at most b^2 + e^2/n, where n is their number. In particular, a block is written with row normalisation and read back: the error of the average of n parts of samples has, over all states of the generator, a mean square of at most the square of the bound of C140 (about 2^-22 of the largest row maximum) plus the square of the bound of C67 (about a step of the quantiser) divided by n.", "quantifier": "all blocks, all sets of parts of samples whose symbols are less than 623 apart, none of them at the lowest level; the uniform and truncated Gaussian quantisers of C79; all states of the generator and any number of earlier dither values", "why_tests_cant": "The mean is over 2^19937 states, for every block; independence is a statement about all joint outcomes.", "anchors": ["stochasticencoder.h:84-123", "dyscodatacolumn.h:78", "dyscodatacolumn.cc:66-95", "rowtimeblockencoder.cc:15-90", "threadeddyscocolumn.cc:79-104", "threadeddyscocolumn.cc:272-294"]}
{"id": "C145", "title": "Averaging removes the error of dithering from antenna-frequency normalised data", "statement": "A block of moderate data is written with antenna-frequency normalisation and read back. Take n parts of samples of cross-correlations whose symbols are less than 623 apart. Over all states of the generator, the error of the average of what is read has a mean square of at most (b + e c/n)^2 + e^2/n. Here e is the bound of C83 on the error of one value, b is the bound of C143 on the mean error, and c is the number of those parts that are negative and beyond the lowest level of the quantiser; these are always read as the same number.", "quantifier": "all blocks of C83, all sets of parts of samples whose symbols are less than 623 apart and whose stored factors are normal floats; all tables of floats, and the quantisers of C79; all states of the generator and any number of earlier dither values", "why_tests_cant": "The mean is over 2^19937 states, for every block and every set of samples.", "anchors": ["aftimeblockencoder.cc:123-439", "stochasticencoder.h:84-123", "dyscodatacolumn.h:78", "dyscodatacolumn.cc:66-95", "threadeddyscocolumn.cc:79-104", "threadeddyscocolumn.cc:272-294"]}
{"id": "C146", "title": "Averaging removes the error of dithering from row-frequency normalised data", "statement": "A block is written with row-frequency normalisation and read back. Take n parts of samples whose symbols are less than 623 apart. Over all states of the generator, the error of the average of what is read has a mean square of at most (b + e c/n)^2 + e^2/n. Here e is about one step of the quantiser in units of the factors, b is the bound of C142 on the mean error, and c is the number of those parts that are negative and beyond the lowest level of the quantiser; these are always read as the same number.", "quantifier": "all blocks of C142, all sets of parts of samples whose symbols are less than 623 apart; all tables of floats, and the quantisers of C79; all states of the generator and any number of earlier dither values", "why_tests_cant": "The mean is over 2^19937 states, for every block and every set of samples.", "anchors": ["rftimeblockencoder.cc:16-146", "stochasticencoder.h:84-123", "dyscodatacolumn.h:78", "dyscodatacolumn.cc:66-95", "threadeddyscocolumn.cc:79-104", "threadeddyscocolumn.cc:272-294"]}
{"id": "C147", "title": "Compressing row-normalised data a second time makes almost no new error", "statement": "A block is written with row normalisation and read, and what was read is written and read again with the same quantiser. If the largest value M of a row is a positive part of a finite sample whose first dither value was not one of the 64 largest of the 2^31, then every part of a sample of that row is read the second time as it was read the first time, up to M/340000, for all second dither values but a share of (L/360000 + g/2^22)/h. Here L is the highest level of the quantiser and g and h are the largest and the smallest distance of neighbouring levels. For the uniform quantiser that a data column makes with N = 2^bits - 1 levels the share is at most N/600000.", "quantifier": "all blocks of floats with row maxima between (L+1) 2^-110 and 2^126, all tables of floats with levels within [-L(1+1/600000), L] and L at least 1, all dither values of the first time and of the other symbols", "why_tests_cant": "The share is over all 2^31 dither values of a symbol, for every block, every table and every first encoding.", "anchors": ["rowtimeblockencoder.cc:12-92", "stochasticencoder.h:84-123", "threadeddyscocolumn.cc:79-104", "threadeddyscocolumn.cc:272-294"]}
{"id": "C148", "title": "Arrays reach a column exactly if they have its type", "statement": "A column that the manager made for a requested type answers to reads and writes of arrays of that type, and to no others: an access with an array of another type raises an exception of casacore, changes nothing, and has no influence on what later accesses do or return. This holds for every column of a manager, whatever requests were made before and after.", "quantifier": "all sequences of requests to a manager, all columns, all sequences of accesses of all types", "why_tests_cant": "The sequences of requests and accesses are unbounded.", "anchors": ["threadeddyscocolumn.h:58-97", "threadeddyscocolumn.h:228-249", "dyscostman.cc:316-336"]}
{"id": "C149", "title": "Every thread of a group is waited for exactly once", "statement": "Whatever sequence of calls to create threads and to join them is made on a group of threads, and whichever threads cannot be created, every thread that was created is joined exactly once: at the next join_all, or when the group is destroyed. No call fails except those that could not create a thread. No std::thread is destroyed while it can be joined, which would end the program. The group is empty exactly if no thread was created since the last join_all, so that a column recognises whether its threads were started.", "quantifier": "all sequences of calls, all outcomes of creating a thread", "why_tests_cant": "The sequences of calls and the threads that cannot be created are unbounded.", "anchors": ["threadgroup.h:13-49", "threadeddyscocolumn.cc:50-71", "threadeddyscocolumn.cc:264-268"]}
{"id": "C150", "title": "When a thread cannot be started, columns are left without threads and layout", "statement": "initializeRowsPerBlock gives every column its place in the block, its block size and its threads if all threads can be created. If a thread cannot be created, an exception is raised in the middle: the header is not written, the columns before are complete, the column of that thread has the threads before it, and the columns after it are untouched. Still the layout counts as initialised from then on, so that later writes do not call the function again. A column that was left without threads raises an exception when it is stopped exactly if a block was stored in it. Calling the function again with the same values, as prepare does, repairs everything but the header, if the threads can be created then.", "quantifier": "all managers with any columns and numbers of threads, all sets of threads that cannot be created", "why_tests_cant": "Threads that cannot be created are an event of the operating system that tests do not meet, and the columns and threads are unbounded.", "anchors": ["dyscostman.cc:261-282", "dyscostman.cc:370-376", "threadeddyscocolumn.cc:50-71", "threadeddyscocolumn.cc:249-269", "threadgroup.h:25-38"]}
{"id": "C151", "title": "A column without threads accepts rows, but never writes them", "statement": "If a column has no encoder threads, because none could be created or no processor was reported, then whatever calls are made on it nothing is written to the file: every block that was stored stays in the cache, which holds at most maxCacheSize blocks. A call that stores a block into the full cache, or reads a block that is in the cache, never returns. Closing the column raises an exception exactly if a block was stored.", "quantifier": "all sequences of calls, all schedules, all tables, new and reopened", "why_tests_cant": "That a call never returns is a statement about all infinite continuations, and columns without threads do not occur in tests.", "anchors": ["threadeddyscocolumn.cc:50-71", "threadeddyscocolumn.cc:107-167", "threadeddyscocolumn.cc:243-269", "threadeddyscocolumn.h:204-206"]}
{"id": "C152", "title": "Arrays that are not contiguous are read and written in their own order", "statement": "Reading a row into an array, whatever the places of its elements in memory, makes its elements the values of the row (or zeros if the row was not stored), in the order of the array, and changes nothing else in memory. Writing a row stores the elements in the order of the array and leaves the array unchanged. So a row put from one array and read into another of the same size is the same for all layouts of both. Access outside an array happens exactly if it has fewer elements than the row. The temporary copies that remain after any sequence of calls are exactly those of the calls that raised an exception while their array was not contiguous.", "quantifier": "all arrays with distinct element positions, all memories, all rows, all sequences of calls", "why_tests_cant": "Tests use contiguous arrays only and make no calls that raise an exception; the layouts are unbounded.", "anchors": ["threadeddyscocolumn.cc:107-143", "threadeddyscocolumn.cc:170-219", "timeblockbuffer.h:30-45", "threadeddyscocolumn.h:59-97"]}
{"id": "C153", "title": "A block whose loading fails leaves a wrong block in memory", "statement": "If reading the file fails while the block in memory has no changes, nothing changes: in any sequence of reads in which only this happens, each read gives the stored row or raises an exception. If the antennas of row k of the new block are the first that cannot be read, the number of the block in memory stays, but its first k rows are those of the new block. So the next reads of these rows of the old block return values of the other block, and a put stores them in the place of the old block. If the file cannot be read after changes of the old block were stored, the buffer is empty but counts as the old block, and the next read of it goes outside the buffer. A put that fails in the same way leaves the same state.", "quantifier": "all states, blocks, rows, first failing rows, codes and sequences of reads", "why_tests_cant": "Failures of single reads in the middle of a block are not provoked by tests, and their effect shows only in later calls.", "anchors": ["threadeddyscocolumn.cc:79-104", "threadeddyscocolumn.cc:107-167", "threadeddyscocolumn.cc:202-217", "timeblockbuffer.h:17-45"]}
