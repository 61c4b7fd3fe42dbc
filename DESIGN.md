# Formal model of Dysco (Lean 4)

Source under study: `/repo` (aroffringa/dysco, C++). The code is read as text; it is
never built or run. The model lives in `lean/Verif/`, one module group per source file.

## How the modules are organised

| group | models | contents |
|---|---|---|
| `BytePacker*`, `PackPrefix` | bytepacker.h | micro-language for the shift/mask statements, the programs `pack2 … unpack16`, memory with bounds |
| `Dictionary*` | dictionary.h | five `lower_bound` variants as index machines |
| `Fl*`, `FloatBits` | IEEE-754 arithmetic used by the codecs | `Fl` (finite rational, infinities, NaN), rounding functions, bit patterns of `float` |
| `Stochastic*`, `EncoderProps`, `DictMemory` | stochasticencoder.{h,cc} | tables, Encode, EncodeWithDithering, Decode; the tables in memory |
| `Quantile*`, `Normal*` | invCumulative and the tables in floating point, stochasticencoder.cc | bisection, true normal distribution |
| `Weight*` | weightblockencoder.h, weightencoder.h | |
| `Loop*`, `Scale*`, `NormSpec` | – | shared: bounded buffers and loops, scaling lemmas, specification of maxima and of an accurate quantiser |
| `TimeBlock*`, `BlockProps`, `Row*`, `RF*`, `AF*` | timeblockbuffer.h, *timeblockencoder.{h,cc} | |
| `Prepare*` | DyscoDataColumn::Prepare, dyscodatacolumn.cc:31-49 | which encoder a data column gets |
| `Layout*`, `Incomplete`, `Locality`, `Power*`, `Mean*`, `Again*`, `Order*`, `Permute` | encodeAndWrite/loadBlock of threadeddyscocolumn.cc, dyscodatacolumn.cc, dyscoweightcolumn.{h,cc} | bytes of one encoded block |
| `StMan*`, `HeaderProps`, `StorageProps`, `ReopenProps`, `ReadOnly`, `Damaged`, `HeaderStream`, `Serial` | header.h, serializable.h, dyscostman.{h,cc} | file bytes, layout, read/write, spec record, row/column administration, reopening |
| `Column*` | threadeddyscocolumn.{h,cc} | client operations and encoder threads as a transition system |
| `Twister*` | `std::mt19937` and `uniform_int_distribution` as used in dyscodatacolumn.{h,cc}, stochasticencoder.h:88-90 | words of 32 bits, state of 624 words; distributions of libstdc++ (since GCC 11) and libc++ |
| `Multi*` | DyscoStMan with its columns, dyscostman.cc:111-118, 261-282 | one client, several columns with their own threads, shared rows per block and block count |
| `Race*` | the variables, mutexes and threads of `Multi*` | accesses of every step, happens before, data races |
| `Split*` | `loadBlock` with its two critical sections | refinement of the single step of `Multi*` |
| `Stmt*` | a column and its threads, one statement at a time with the mutex as a variable | simulation by `Column*` |
| `MStmt*` | the same for all columns of a storage manager | simulation by `Multi*` |
| `Lock*` | the same with the calls of the manager (mutex, stream position) split into statements | simulation by `MStmt*` |
| `Stream*` | dyscostman.cc:178-211, 399-445, dyscostman.h:239-242 | the calls on the shared stream split into seek, read and write; threads with the manager's mutex |
| `World*`, `Undefined` | threadeddyscocolumn.cc:79-104, 184-202, 272-294, dyscostman.cc:260-283 | the columns and threads of `Multi*` and the manager with its bytes of `StMan*` as one program; whole tables from the calls of the client to the rows read after reopening |
| `Session*` | threadeddyscocolumn.cc:79-135, 184-202, 232-270, 272-344, dyscostman.cc:111-118, 285-371, 413-445 | the same for a table that exists in a file: blocks are loaded from the bytes, changed and written again; any number of sessions |
| `End*` | putValues … getValues through the file | composition: a column on top of its file |
| `Tools*`, `Check*`, `CmdProps`, `MoveProps`, `TableProps`, `AnyArgs`, `AnyDecompress`, `Reorder` | dscompress.cc, decompress.cc, stmanmodifier.h | |
| `Compress*`, `Report` | dscompress.cc as a whole, on a measurement set, with its manager and the threads of the columns | |
| `UVector*` | uvector.h | |
| `ThreadGroup`, `StartThreads`, `Threadless` | threadgroup.h; initializeRowsPerBlock of dyscostman.cc and InitializeAfterNRowsPerBlockIsKnown when threads cannot be created | creating a thread can fail; a thread does not join its own group |
| `ArrayStorage`, `ArrayBlock` | the array storage in getValues and putValues of threadeddyscocolumn.cc | getStorage, putStorage and freeStorage as casacore documents them; between them only the outcome counts |
| `FailedLoad` | loadBlock, getValues and putValues of threadeddyscocolumn.cc when loading a block raises an exception | the client alone: a stored block counts as written at once; whether casacore raises an exception for a missing row is a parameter |
| `ManagerProps`, `AccessProps` | makeDirArrColumn, clone … of dyscostman.cc | |
| `Stopwatch*` | stopwatch.{h,cc} | |

In every group, the *model* (`…Model.lean`), *helper lemmas* (`…Lemmas.lean`), and the
*property theorems with their specification* (`…Props.lean`) are in separate files.
Specification definitions in a `Props` file do not use model helper functions.
Every definition that models code cites it. Definitions without a citation outside of the
`Model` files are specifications, invariants of proofs, and data of examples.

Undefined behaviour (out-of-bounds access, invalid float to integer conversion, use
after free, …) is an explicit outcome of the model, never a default value.

## Trusted base

* Lean 4.33.0's kernel, and Mathlib as a library of checked proofs.
* Axioms: at most `propext`, `Classical.choice`, `Quot.sound` (checked with `#print axioms`;
  the section "Axioms" at the end lists the result per theorem group). No own axioms, no
  `sorry`, no `native_decide`, no `bv_decide`.
* That each model definition is a faithful transcription of the cited lines of C++.
  This is by reading; each definition has a comment with file and lines and lists its simplifications.

### Modelled exactly
Bit packing; binary searches; quantisation decisions; IEEE binary32/binary64 rounding
(round to nearest, ties to even, gradual underflow, overflow) where a theorem says so;
header byte layout; file layout and seek/read/write effects; the lock/condition variable
protocol; UVector pointer administration; tool logic.

### Simplified or left out
* Signed zero and NaN payloads are not distinguished (no code path modelled here observes them).
* A conversion from double to float beyond the range of float gives infinity (IEC 60559; in ISO C++ alone it is undefined).
* GSL special functions, `erf` and `std::sqrt` are parameters: C06–C12 hold for every (strictly) monotone quantile
  function and every RMS function; C68–C72 model `invCumulative` and need an accurate `erf` or GSL function.
* x87 `long double` is only used to build tables; C06–C12 allow any monotone rounding, C69–C72 model a 64 bit
  significand. In the stopwatch texts it is exact.
* casacore (tables, records, arrays, other storage managers) is modelled by its documented effect.
* Outside `Twister*`, `std::mt19937` is replaced by an arbitrary stream of dither values.
* Operating system I/O: the file is a growing array of bytes; holes read as zero; no I/O errors unless stated.
* `std::mutex`/`condition_variable` have their standard semantics (spurious wake-ups are allowed). The threads are
  interleaved by whole steps, from taking a mutex to releasing it or between two of these. C126 shows that the accesses
  in these steps do not race, and C127 splits the only step that takes a mutex twice, so that every step has at most one
  critical section. C128 and C129 show for one and several columns that undivided critical sections of the columns are as
  good as interleaving the statements, and C130 adds the statements within the calls of the manager. Trusted: a program
  without data races behaves like an interleaving of its accesses (the guarantee of the C++ memory model).
* RF/AF arithmetic is modelled over exact rationals unless the theorem names a rounding.

## Plan per property

| id | what is modelled, how it is proved |
|---|---|
| C01, C02 | Programs of the micro-language for each `packN/unpackN`, executed on bounded memory with a UB outcome. Proved per bit for a group, then by induction on the number of groups, then for each tail length. Spec: the LE bit stream. C01 follows from C02 for pack and unpack. |
| C03 | The `switch` of pack/unpack; case analysis. |
| C04, C05 | Index machines with probes recorded; invariants over the loops; any linear order. NaN/unsorted content is covered in C05 by an arbitrary comparison. Negative witness for pointer formation at n=4. |
| C06–C08, C12 | Tables as functions on indices with sortedness invariants; built from an arbitrary quantile function and a monotone rounding; Encode through the C04 specification. |
| C09–C11 | EncodeWithDithering with the rounding functions of `Fl`; C10 sums over all dither values. C11 is violated (witness) and proved for dither values below 2^31-64. |
| C13 | Uniform constructor in exact arithmetic. |
| C14–C17 | WeightBlockEncoder in `Fl` with binary32/binary64 rounding; error analysis of two roundings. C17: UB outcome. |
| C18 | WeightEncoder in exact arithmetic. |
| C19 | Row encoder in `Fl` with binary64/binary32 rounding. |
| C20–C24 | Row and RF encoders in exact arithmetic with NaN; C24 negative witness plus positive half. |
| C25–C27 | AF encoder; invariants over the fitting loop; termination by a bounded potential. |
| C28 | Count formulas and buffer index sets. |
| C29 | Operation sequences against a map. |
| C30–C33 | Byte-level serialisation with an explicit parser. |
| C34–C38 | Layout functions over Nat with explicit 2^32 wrap; file as byte array; operations by induction. |
| C39–C42 | Decision logic and invariants. |
| C43–C51 | Labelled transition system (client + k encoder threads, explicit waiting sets); inductive invariant; progress; negative witnesses as concrete executions. |
| C52–C57 | Tool logic over abstract tables; crash points as prefixes of the step list. |
| C58–C60 | Pointer-level UVector machine refined to lists. |
| C61 | Composition: the column transition system gives which rows each stored block holds, the codecs give the bytes, the file operations of all columns are any list that contains the writes of this column in order; after reopening, any list of reads. |
| C62 | Column transition system with the step that adds a column; concrete lost rows. |
| C63, C64 | Comparison operators on the UVector machine; allocation failures as part of every program. |
| C65 | Path handling of the reorder step. |
| C66 | Byte-level composition of header writing, reading and `prepare`. |
| C68 | Bisection model with arbitrary function and rounding; measure: width of the interval in units of the last place. |
| C69 | Invariant connecting the counter to the width of the interval; true distribution as an integral (Mathlib), slope and tail bounds. |
| C70–C72 | Accuracy of the quantiles, separation of neighbouring fractions, error of the conversion to float. |
| C73 | Loop invariant. |
| C74 | Invariant of the column transition system with one thread: the cache is the queue of stored and not written blocks. |
| C75 | Call sequences by induction. |
| C76, C77 | Call sequences against a sum over intervals; rounding of rationals. |
| C67 | Error analysis of row normalised encoding and decoding with binary32/binary64 rounding. |
| C78 | The same for the two stages of row-frequency normalisation, with an underflowing channel factor allowed. |
| C79 | The tables built by `Prepare` meet the hypotheses of the round trip (near symmetry and gap bounds from the accuracy of C70–C72); then error bounds in terms of the precision of the table (`Quantised`, `Grid`), which is a number for the default settings (`concrete_quantised`). Student's t is in C108. |
| C80 | Antenna-frequency normalisation: invariant "sample times stored factors is the original, up to a factor `(1 ± 1/15000000)^k`" over the `k` adjustments of the fit (AFFloatLemmas, AFFloat); the decoder multiplies by the same stored factors. The square root is arbitrary. |
| C81 | Invariant of the same loops in any arithmetic: what is not finite stays not finite. |
| C82 | From data of moderate range (components zero or between 2^-40 and 2^40) the range of the normalised block is derived that C36 and C80 assume: RMS values and antenna factors are bounded over the iterations (AFRangeLemmas, AFRange). The square root keeps powers of four in order; a correctly rounded one does (`sqrtMono_of_nearest`). |
| C83 | C80 with C82 removes the conditions on the normalised block (AFModerate); then the same composition as for the other normalisations: encoder, packing, blocks, reopening, reading (EndAF), and the concrete quantisers of C79 (`prepared_af`). |
| C84 | Relative error of the three rounded operations of the dither mark (differences of floats round well even when subnormal), absolute error 64 of numbers up to 2^31, and counting the dither values on either side (DitherFloat). The exact mean at a level comes from C11. |
| C85 | Simulation: the client's variables, and for each block its last store or old content, are those of the program without threads; a block that is loaded is never in the cache, because reads wait for it and puts only load blocks that were never stored (ColumnUpdate). What decoding gives is a parameter that may depend on the block and on how often it was written, so that every encoding has its own random numbers. The values follow by induction over that program. |
| C86 | Two steps of the client, with the invariant that an unchanged buffer holds its block as decoded; a complete run as witness. |
| C87 | Simulation: for each column a list of calls (its own so far, and `otherInit` when another column fixed the rows per block) that leads the single-column model to the projection of the state. Steps of other columns are the label `others` (MultiLemmas). |
| C88 | The place of the client (`Place`) says that all caches are empty during the initialisation: nothing is stored while the rows per block are unknown. Empty caches mean idle threads by the invariant of C43. |
| C89 | A state without steps projects to a state without steps of every column, so C45 applies. Termination: the sum of the single-column bounds plus the manager's own steps falls with each step. |
| C90 | C87 with C50 and C85 for each column; the rows per block agree because all columns see the same time blocks. |
| C91 | Invariant: at most one thread is in a call, and the manager is what the completed calls give plus the part of the call under way; the log of completed calls is the sequential order (StreamProps). |
| C92 | An explicit schedule; the bytes of the header go one by one to wherever the stream is. |
| C93 | One transition system of columns, threads and bytes; invariant `WInv`: nothing before the header, then a list of block operations that implements the writes of each column (WorldLemmas, WorldProps). |
| C94 | The state at the header is a state of the column alone (C87); the invariant of a whole column says that the buffer then holds the rows of the first block. |
| C95 | C93 with C87: what each column wrote is known from the column alone; the last column's write of the last block is in the list. |
| C96 | C95 gives the hypotheses of the theorems of each normalisation (C61, C79, C83) for all columns at once. |
| C97 | Every run of the columns lifts to one with bytes, as the encoder returns for whole blocks of the table (C82 for antenna-frequency normalisation); then C88 and C89. |
| C98 | History variable for what the written bytes decode to; an existing run of the columns (C90) with these outcomes as the abstract decoder, whose outcomes agree for all blocks that were written; invariant that the bytes in the file are those of the last write (SessionLemmas, SessionProps). |
| C99 | `TableFile` as an invariant of the file between sessions: made by create and block operations, blocks decode, rows fit the columns. Reopening by C66, update by C98 and the program without threads, reading as in C61; any bytes of the right length decode, and what weights decode to are weights again (SessionCodec, SessionTable, SessionLife). |
| C100 | Rows that fit can be encoded and decode to rows that fit, so every run of the columns lifts to one with bytes (SessionEnd, SessionTable). |
| C101 | The last stay of a block in memory determines what is stored; one encoding has the bounds of C96, shown for a single block (SessionClose). |
| C102 | `Runs`: the program finishes after a definite number of calls; loop over rows with the rows done so far as invariant; the check by C53; moving by the phases of C58 with the list of puts as part of the new column (CompressLemmas, CompressProgram). |
| C103 | Induction over the added columns: only the file and its header size differ, and the file is never longer than the last header. Two runs stay equal in the columns, and in the manager once the layout is fixed (`Twins`, CompressManager, CompressWorld). |
| C104 | C102 gives the puts, C53 the block size, C103 the manager; then C96 and C97 (CompressProps). The hypotheses are met in CompressSample. |
| C105 | C57 for the table that C104 leaves; the values of a column are those that `getAll` gives for the rows in order (CompressReturn). |
| C106 | After closing, all threads have ended, the cache is empty and no block is changed; so the only steps are those of the client, which are followed one by one (ColumnAgain). The undefined read is a theorem with a concrete run. |
| C107 | Opening gives back the manager (C66), so the settings are equal; a table of levels is determined by its function up to the capacity, which is all that decoding uses; reading uses nothing else of a codec (WorldSettings). |
| C108 | Levels of Student's t with one degree of freedom are tangents; all bounds follow from the angles of the stored floats, which are within 2^-22 of the intended ones (StudentProps). The other distributions from C79 (QuantiserProps); for the options of `dscompress` in CompressQuantiser. |
| C109 | `atoi` is modelled and characterised by the decimal numerals of Lean's core library; C54 gives the options, C103 the manager, C104 the file (CompressMain). |
| C110 | The sums of the antenna fit are empty or zero, so the factors follow one concrete sequence of doubles, checked for all its 100 steps; then an invariant of the normalised block (`AF.Lost`) through the fit, in which every factor is 1 (AFAuto). |
| C111 | An invariant (`AF.Useless`: the factor is zero or NaN, in any arithmetic) through both halves of the fit; the concrete block is normalised by the kernel (AFWeak). |
| C112 | The constructor loops as stores in the heap of the `UVector` model, simulated against the table model; moves by induction on the list of temporaries (DictMemory). |
| C113 | A partial-correctness triple for programs that can be stopped or throw (`Safe`), with one invariant per loop: where each original column is after a chain of renames, and which names are absent (AnyArgs). |
| C114 | The same triple with the phases of the two columns (AnyDecompress). |
| C115 | A loop with one undefined iteration is undefined, with what the earlier iterations keep (row lengths, antennas) as invariant; for the table by contradiction with C95, which says what a closed table has written (Undefined). |
| C116 | The symbolic execution of C02 without knowledge of the symbols: a bit of the stream has its own origin, and apart from it only high bits of earlier symbols; checked for every loop body and tail and lifted to all counts (PackPrefix). |
| C117 | C116 for the unassigned symbols; the encoders write a prefix of the buffers that depends only on the rows (Incomplete). The invariant of a whole column (C50) covers any number of rows, so C93-C96 need complete blocks only for what is read. |
| C118 | Invariant of the fit (`AF.Zeros`): factor zero and samples zero, as long as the factors of the antennas are usable; a usable factor in the file bounds the antenna value from below, so that its inverse is finite. The block: C110 (AFZero). |
| C119 | The operations of the manager with a stream that was opened for writing or not; a write to the latter sets the bad bit. Induction over the operations (ReadOnly). |
| C120 | The grid of fractions is symmetric, and so are boundaries and levels for every odd quantile function; the cell of a negated value by `encode_iff_cell`. `invCumulative` computes one half of the curve only (StochasticSym, QuantileSym). |
| C121 | The pointers that `Prepare` fills, by the numbers in the header; a missing `case` leaves a null pointer. Case analysis over the four bytes; `opened_settings` connects them with the file (Damaged). |
| C122 | A step is added in which a thread ends the program when encoding raises an exception; until then runs are runs of the model without exceptions, so its invariants hold. Blocks with exceptions stay in the cache; the client can go on until the cache is full (ColumnRefused). |
| C123 | The disk as a map from paths to tables, after each step of `Reorder`; the copy of a Dysco table by C75's record round trip (Reorder). |
| C124 | A run does not depend on the calls that follow, so a schedule for putting all rows can be continued by reads. It lets the threads finish before each step of the client; then only the client runs, and the last block stays in the cache (ColumnCopy). |
| C125 | The stream with its fail bit, reads that leave what was in memory. A read succeeds only if all before it did, so the test at the end sees every failure (HeaderStream). |
| C126 | Each step of `Multi*` gets the list of its accesses and of the mutexes it takes, in the order of the code; happens before is program order, release to acquire, creation and joining. Invariant: each variable was used only by the client up to some moment that its users know of, and afterwards with its mutex; the buffer of a block is known to the mutex while it waits and to the thread that encodes it (Race*). |
| C127 | `loadBlock` is the only step of `Multi*` that takes a mutex twice. Split in two, it is simulated by the one-step program: if the block was not found the step is made at the test, otherwise at the reading, as the block count never decreases (Split*). Race freedom by the invariant of C126. |
| C128 | The state of `ColumnModel` for a statement level state has each critical section done at the statement that changes shared variables; threads that wait while the holder of the mutex is about to notify count as woken. Each statement is either one step of `ColumnModel` or none, and of the latter there are boundedly many in a row (Stmt*). |
| C129 | The relation of C128 holds for every column together with the shared variables; a statement of one column leaves the others as they are except for the number of blocks. Deadlock freedom, the files, and the bound are those of C89, C90 and C97, carried over (MStmt*). |
| C130 | Taking the manager's mutex, raising the number of blocks, and seeking are silent; reading, writing and not loading are the steps of C129. The number of blocks may be ahead while a thread is in the manager; nobody sees it before the mutex is released. The header is written while no item is in a cache, so no thread can be in the manager. Deadlock freedom, files, and bound are those of C129, carried over (Lock*). |
| C131 | Items with their bytes, functions that read them, on the stream of C125. Induction over the items; a read that succeeds depends on its bytes only, so a success on a stream that is cut off would be a success on the whole one, which ends behind the record (Serial). |
| C132 | `symbolAt` sums the bits of a symbol from arbitrary bytes, so it is below `2^bits` and `readBlock_spec` applies to any block. The value then needs only its floats and bits; a byte in another place cannot be one of them (Locality). |
| C133 | Row: metadata and symbols of a row from `Row.encode_spec`, where only the row and its dither values occur. The contrast for row-frequency normalisation and weights is a pair of concrete blocks (Locality). |
| C134 | Weights: decoding then encoding a symbol gives that symbol, because the four roundings move it by less than half a step; the largest weight is kept exactly, so the second block has the same maximum (WeightStable). Only for a maximum of zero or at least 2^-126; below, a concrete 16-bit weight moves to the next symbol. |
| C135 | Rounding commutes with multiplication by a power of two away from subnormals and overflow; quotients of floats are always in that range for doubles, so the quantiser gets the same numbers (Power). Rows with largest counted value zero are excluded. With row-frequency normalisation the row stage removes the powers, and everything behind it is the same (PowerRF). With antenna-frequency normalisation the first stage, division by the root mean square of the channel, gives the same numbers before and after, so the loop runs the same way and ends in the same round; only the stored channel factor differs (PowerAF, PowerAFProps). This needs a square root that commutes with powers of four; the correctly rounded one does (`sqrtPow_of_nearest`). Channels whose only finite samples are zeros, beside others that change, are excluded (`Scalable`). |
| C136 | Every operation between value and symbol is monotone in float arithmetic (`Fl.le`, with infinities); the difference of two floats is never rounded to zero, so neither is the divisor of the dither mark (Order). With row-frequency normalisation the channel factor is at least one half (`rf_part`). Negative: `order_other_dither`, `tiny_sign_lost`, `rf_order_channels`. |
| C137 | The text is cut at its line breaks; digits are injective, and the names of the distributions and normalisations differ in their first letters (Report). Which manager is made is `createColumns` of C103. |
| C138 | The factors are largest values over sets of samples (`maxFold_reindex`), and with `rf_block`, `row_block` and `weightWrites` every stored number is a function of the sample and of those largest values. For antenna-frequency normalisation (`AFPols`) a relation `SamePol` between the states of two encoders, of blocks with different numbers of polarisations, is kept by every step on the polarisation and by every step on another one; the loops run in lockstep. |
| C139 | Invariant of the manager along all schedules: no rows per block, no threads, and the columns in the state that the calls so far give (MultiOne). |
| C140 | C84 for the scaled component, and linearity of the mean: every read differs from level times exact row factor by rounding only, so the means differ by as much (MeanRow). |
| C141 | The twist is undone from its result: the upper bit tells whether the matrix was added, so the step is a bijection of the 19937 bits that matter; tempering is a bijection as shifted words are determined bit by bit. Sums over all states are then sums over all words. With C140 for the block, and C74 for the static seed (Twister*). The model gives the 10000th output that the standard prescribes, 4123659995 (evaluated, not proved); the first three outputs are checked by the kernel. |
| C142 | As C140 with the two factors: the scaled number is C79's, the mean of its levels is C84's, or it is at or below the lowest level and gets symbol 0 whatever the dither value; C141 for the states (MeanRF). |
| C143 | The fit does not see the dither values, so the number of iterations and the factors are the same for all of them; then as C142 with the errors of C83 (MeanAF). |
| C144 | The 623 outputs are a bijection of the states up to one bit (C141), so products of functions of them have the product of the means; the mean square of a sum is that of the means and of the single errors (MeanSquare). |
| C145 | The sum of the mean errors is bounded with those of the exceptions, and C143 gives both bounds for each part (MeanAverage). |
| C146 | As C145, with the bounds of C142 (MeanAverageRF). |
| C147 | A value that is read is a level times the factor. The second factor differs by rounding, so the number that is quantised the second time is close to the level; the mean of the levels (C84) then bounds the share of the other levels (Again). The distances of the uniform levels follow from C71 (AgainUniform). |
| C148 | Case analysis over the four overridden functions; induction over the accesses (AccessProps). The functions of the base class are those of casacore and are taken to raise an exception and do nothing else. |
| C149 | Induction over the calls: the handles are those of the threads since the last `join_all` (ThreadGroup). |
| C150 | Induction over the threads of a column and over the columns (StartThreads). Numbers do not wrap around in this model, and threads that exist empty the cache when they are stopped (C45, C46). |
| C151 | Invariant of the column model with zero threads; a state that waits is kept by every step (Threadless). |
| C152 | Arrays as positions in a memory; elements compared one by one for contiguous and other arrays; induction over the calls for the copies (ArrayStorage); the copy loops are those of the block buffer model of C29 (ArrayBlock). |
| C153 | Induction over the decode loop for its state after an exception; induction over reads when only the file fails; witnesses for the wrong values (FailedLoad). |

## Disagreements found between code and documentation or expectation

Each line names the theorem that shows the behaviour in the model.

Quantisation and normalisation
* A value equal to a quantisation level should survive dithering. The 64 largest of the 2^31 dither values
  round to the float 2^31 and give the level below: `Stochastic.dither_level_not_stable` (C11).
* For the same reason a zero, or a value that underflows when it is scaled, can come back as the level below zero, so that
  its sign changes: `Layout.tiny_sign_lost` (C136).
* The comment in the encoder says the largest float is encoded as infinity; it is not: `Stochastic.encode_fltMax`.
* With Student's t the level next to the largest is about a third of it, with any number of bits, so the largest values
  have large errors: `End.student_coarse` (C108).
* The comment of `RightBoundary` calls it the smallest value that is not quantised to the symbol any more; that value still
  is: `Stochastic.boundary_included` (C120).
* The default dictionary search forms a pointer beyond one past the end for sizes other than 2^b-1:
  `Dictionary.lowerBound_forms_invalid_pointer`. The search variants disagree on dictionaries with duplicates:
  `Dictionary.variants_differ_on_duplicates`.
* A visibility whose real part is NaN and whose imaginary part is the largest of its row is clipped, because
  `std::max(NaN, x)` is NaN: `Row.half_flagged_clipped` (C24).
* A row maximum near the largest float can decode to infinity: `Row.row_max_overflows` (C67).
* With antenna-frequency normalisation autocorrelations are scaled twice and not bounded: `AF.auto_not_bounded`.
* With antenna-frequency normalisation, a block whose cross-correlations are all flagged or zero loses its autocorrelations:
  `AF.af_autocorrelations_lost` (C110). (The tests say of autocorrelations that they "are not saved"; the README does not.)
* With antenna-frequency normalisation, an antenna that is much weaker than the strongest gets factor zero, and its samples
  are lost: `AF.weak_antenna_lost` (C111).
* With antenna-frequency normalisation, an antenna that first occurs after the first time block is used as an index outside
  the arrays of the encoder; a row of a block that was never put is read outside its vector with every normalisation:
  `World.late_antenna`, `World.thread_needs` (C115). `dscompress` refuses such tables (C52), but tables can be written
  without it.
* Negative or NaN weights, and zero polarisations, are undefined behaviour: `Weight.negative_undefined`,
  `Weight.nan_undefined`, `Weight.no_polarisations_undefined`; an all-zero vector in `WeightEncoder` too:
  `Weight.vec_all_zero_undefined`.

Storage manager
* The spec record of a StudentsT table cannot be used to make a new table (the name written is not the name
  read): `StMan.spec_students_refused`.
* Bit counts and settings above a byte are stored modulo 256: `StMan.reopen_truncates`.
* A file with a block size of zero and data after the header divides by zero on opening (`.ub` in
  `StMan.open_spec`).
* Settings that are read from a file are not checked (dyscostman.cc:213-259), and the `switch` statements of `Prepare`
  have no default (dyscodatacolumn.cc:18-49), so a damaged header gives a null pointer instead of an exception:
  `Damaged.settings_not_checked` (C121).
* For a file of at most 12 bytes `readHeader` allocates an indeterminate number of bytes before it finds that the file is
  too short: `StMan.length_indeterminate` (C125).
* `SerializeTo32bString` writes a string of 2^32 or more bytes with its length modulo 2^32: `StMan.string_lost` (C131).
* When the last column did not write the last block, that block is lost on reopening: `StMan.reopen_count`.
* Removing a column changes the header size and with it the place of all data: `StMan.removeColumn_shifts`,
  `StMan.removeColumn_reads`.
* After an exception of a write, the fail bit of the stream stays set; reading the last block then reports success and leaves
  old bytes in the buffer: `StMan.readonly_stale` (C119).
* Reading a last block that is not completely in the file leaves old bytes in the buffer: the second case of
  `StMan.read_unwritten`.

Columns and threads
* Rows that were put but whose block is not in the file yet read as zero: `Col.put_get_unknown`,
  `Col.put_get_uncounted` (C48).
* Rewriting part of a block that is still in the write cache loses the cached rows: `Col.lost_row` (C49).
* `removeColumn` writes the header without the mutex of the stream and can put a block in place of the header:
  `Stream.header_race` (C92), which is a data race: `Multi.removeColumn_race` (C126).
* `addColumn` reads the block count without the mutex: a data race with an encoder thread, `Multi.addColumn_race` (C126).
* A new block that is begun after a read starts with the rows of the block that was read: `Col.stale_rows`,
  `Col.stale_row` (C86).
* A table with a single time block cannot be closed: `Col.single_block_fails` (C50). The exception comes out of the destructor
  of the manager, which ends the program. Until then all rows read as zeros, in every column: `Multi.one_block` (C139).
* `SetStaticRandomizationSeed` resets the generator of the column, but a column with a static seed never uses it: its thread keeps
  the default seed. So all columns have the same dither values, and equal data give equal errors in all of them:
  `Twister.thread_seed`, `Twister.static_bytes` (C141).
* If a thread cannot be created while the layout is set, the remaining columns get no threads and no block size, although the
  layout counts as initialised, and the header is not written: `Threads.init_fails` (C150). A column without threads keeps its
  blocks in the cache until it is full and then waits for ever: `Col.threadless_stuck` (C151).
* If the antennas of a row cannot be read while a block is loaded, the buffer has rows of the new block, but keeps the number of the
  old one. Rows of the old block then read as rows of the other block: `Failed.misread`; a put stores the wrong rows:
  `Failed.overwritten`. If the file cannot be read while the old block has changes, the next read goes outside the empty
  buffer: `Failed.read_fails_changed` (C153).
* An exception that passes through `getValues` or `putValues` leaves the contiguous copy of an array that is not contiguous
  allocated: `Arrays.run_copies` (C152). The comments at threadeddyscocolumn.h:62 and 83 ask for contiguous arrays, but others
  are handled correctly too: `Arrays.put_get` (C152).
* Adding a column while blocks are in the cache deadlocks: `Col.add_column_deadlock` (C51); it also forgets rows
  that are in the block buffer: `Col.add_column_loses_rows` (C62).
* Reading an incomplete last block asks for the antennas of rows that the table does not have (loadBlock loops over
  `nRowsInBlock()`, threadeddyscocolumn.cc:96-101). If another column wrote that block before, putting a row also loads
  it, and the rows after the last are encoded as if they had been put: `Filled.others` in `End.RunOf.written` (C117).
* With a static seed and one thread the encoded bytes still depend on timing if blocks are not put in ascending
  order: `Col.seeded_order_matters` (C74). The seed setting is not in the record: `StMan.spec_drops_seed` (C75).
* After `shutdown` has stored the block in memory, reading a row of that block reads outside the empty buffer:
  `Col.reread_current`; a row put after `shutdown` is lost: `Col.write_after_close` (C106).
* A number of bits that cannot be packed is refused only in an encoder thread, which ends the program. `dscompress` may
  have removed the old column by then: `Col.copied_lost` (C122).
* `-reorder` copies the open table; the rows of the last block can be copied as zeros: `Col.copy_zeros` (C124).
* If the number of processors is unknown the number of threads is 2^64-1: `Col.threadCount_error`.

Tools
* `dscompress` removes the old column before the last block is stored; a table with one time block loses its
  data: `Tools.compress_one_block_lost`.
* A mix of Dysco and other columns makes it stop after renaming: `Tools.compress_mixed`.
* The regularity check reads outside its array when a later time block is longer: `Tools.check_ub_iff`.
* An irregular measurement set is refused only after its flagged samples were overwritten by NaN:
  `Compress.dscompress_throws` (C102).
* All compressed columns get the shape of the last one, and the Student-t parameter is always 1 (dscompress.cc:332-358;
  modelled in `Compress.newColumn`, `Compress.manager`).
* A missing option value or path dereferences a null pointer: `Tools.parse_no_value`, `Tools.parse_no_path`.
* `FLAG` arrays shorter than the data are read out of bounds: `Tools.nanRows_short`.
* `dscompress -column DATA -column DATA` throws after renaming DATA, so that the data is under TEMP_DATA only; with
  `-column DATA -column TEMP_DATA` it is under TEMP_TEMP_DATA and DATA holds zeros (examples in `AnyArgs`, C113).
* `decompress` of a table without WEIGHT_SPECTRUM stops with an empty data column: `Tools.decompress_no_weights`.
* The hours and days texts of the stopwatch count the time twice: `Timer.hours_wrong`, `Timer.days_wrong` (C77).
* A path of slashes only is read before its beginning: `Tools.reorderName_none`.
* `-reorder` deletes a table that has the name of the measurement set followed by `temp`: `Tools.reorder_overwrites`; after
  `-studentt` it always throws: `Tools.compressed_copied_iff` (C123).

UVector
* Copy assignment into sufficient capacity does not change the size: `UVec.copy_assign_size_wrong` (C59).
* Inserting an element or range of the vector itself inserts other values when elements are moved:
  `UVec.insert_own`, `UVec.insert_own_full` (C60).
* Comparison with NaN elements: `UVec.compare_unordered`.

## Axioms

`#print axioms` of every theorem listed in MANIFEST.json gives a subset of `propext`, `Classical.choice` and
`Quot.sound`. There are no other axioms in the project. `decide +kernel` is used for complete finite tables
(the bit programs of BytePacker, lifted by a soundness lemma), for concrete witnesses of negative results and for
examples; it adds no axiom.

## Mutation testing

`seeded/LOG.jsonl` has one line per wrong program: a model definition was changed in a scratch copy so that a
claim becomes false, and the theorems that are no longer proved were recorded (`theorems_failed`): their proof has an
error, or uses a theorem whose proof has one. A claim counts as caught when one of the theorems named for it in
MANIFEST.json is among them. This is weaker than showing that the statement became false: a proof can also break
because it follows the text of the definition, and that was not checked for each entry. Entries without a failed
theorem say in a note which theorem was added because of them, or why the claim stays true.
