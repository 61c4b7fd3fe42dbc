{
 "claims": [
  {
   "property": "C01",
   "status": "proved",
   "theorems": [
    "Dysco.BytePacker.pack_unpack_roundtrip"
   ],
   "note": "All supported bit counts, all n, any old buffer contents. Symbols must be below 2^b; out_of_range_symbol_corrupts_neighbour shows this is needed."
  },
  {
   "property": "C02",
   "status": "proved",
   "theorems": [
    "Dysco.BytePacker.pack_stream",
    "Dysco.BytePacker.unpack_stream",
    "Dysco.BytePacker.pack_independent_of_old"
   ],
   "note": "Memory accesses outside the arrays are a distinct outcome that the theorems exclude. uint16 stores of pack16 are modelled as little-endian byte pairs."
  },
  {
   "property": "C03",
   "status": "proved",
   "theorems": [
    "Dysco.BytePacker.unsupported_refused",
    "Dysco.BytePacker.supported_accepted"
   ],
   "note": ""
  },
  {
   "property": "C04",
   "status": "proved",
   "theorems": [
    "Dysco.Dictionary.lowerBound_correct",
    "Dysco.Dictionary.branchless_correct",
    "Dysco.Dictionary.oneMin_correct",
    "Dysco.Dictionary.slow_correct",
    "Dysco.Dictionary.twoMin_correct",
    "Dysco.Dictionary.variants_agree",
    "Dysco.Dictionary.variants_differ_on_duplicates"
   ],
   "note": "variants_differ_on_duplicates shows that strictness is needed for the bisecting variants: they return the last of several equal elements."
  },
  {
   "property": "C05",
   "status": "proved",
   "theorems": [
    "Dysco.Dictionary.searches_in_bounds",
    "Dysco.Dictionary.lowerBound_pointers_ok",
    "Dysco.Dictionary.lowerBound_forms_invalid_pointer"
   ],
   "note": "lowerBound_forms_invalid_pointer shows that the restriction to sizes 2^b-1 is needed for the pointer clause."
  },
  {
   "property": "C06",
   "status": "proved",
   "theorems": [
    "Dysco.Stochastic.encode_iff_cell",
    "Dysco.Stochastic.encode_finite",
    "Dysco.Stochastic.encode_monotone",
    "Dysco.Stochastic.encode_fltMax",
    "Dysco.Stochastic.constructed_cell"
   ],
   "note": "Finite floats are all at most FLT_MAX, which is the hypothesis on the value."
  },
  {
   "property": "C07",
   "status": "proved",
   "theorems": [
    "Dysco.Stochastic.nonfinite_reserved",
    "Dysco.Stochastic.finite_not_reserved",
    "Dysco.Stochastic.constructed_nonfinite"
   ],
   "note": "For an encoder whose tables were filled by a constructor (C12). Copying an encoder is outside this statement."
  },
  {
   "property": "C08",
   "status": "proved",
   "theorems": [
    "Dysco.Stochastic.encode_decode"
   ],
   "note": "Quantile functions are arbitrary strictly increasing functions with finite float values; strictness after rounding to float is a hypothesis."
  },
  {
   "property": "C09",
   "status": "proved",
   "theorems": [
    "Dysco.Stochastic.dither_neighbour"
   ],
   "note": "For every rounding function, so in particular binary32."
  },
  {
   "property": "C10",
   "status": "proved",
   "theorems": [
    "Dysco.Stochastic.dither_unbiased"
   ],
   "note": "Exact arithmetic, as stated."
  },
  {
   "property": "C11",
   "status": "partial",
   "theorems": [
    "Dysco.Stochastic.dither_level_stable_partial",
    "Dysco.Stochastic.dither_level_not_stable",
    "Dysco.Stochastic.dither_level_exact",
    "Dysco.Stochastic.dither_level_stable_exact_arith"
   ],
   "note": "The code violates the statement in binary32 arithmetic: the 64 largest of 2^31 dither values convert to the float 2^31 and send the value to the level below (dither_level_not_stable). dither_level_exact characterises all cases."
  },
  {
   "property": "C12",
   "status": "proved",
   "theorems": [
    "Dysco.Stochastic.construct_well_formed",
    "Dysco.Stochastic.construct_well_formed_on"
   ],
   "note": "The quantile function is an arbitrary function, strictly increasing on the fractions that are used; C70-C72 discharge this for the code in floating point."
  },
  {
   "property": "C13",
   "status": "proved",
   "theorems": [
    "Dysco.Stochastic.uniform_nearest",
    "Dysco.Stochastic.uniform_dither_step"
   ],
   "note": "Exact arithmetic tables."
  },
  {
   "property": "C14",
   "status": "proved",
   "theorems": [
    "Dysco.Weight.weight_round_trip"
   ],
   "note": "binary32/binary64 rounding of every operation is modelled."
  },
  {
   "property": "C15",
   "status": "proved",
   "theorems": [
    "Dysco.Weight.weight_round_trip"
   ],
   "note": "The rounding allowance is M*2^-22 + 2^-149; zero, the block maximum and the upper bound M are exact."
  },
  {
   "property": "C16",
   "status": "proved",
   "theorems": [
    "Dysco.Weight.one_weight_per_sample"
   ],
   "note": ""
  },
  {
   "property": "C17",
   "status": "proved",
   "theorems": [
    "Dysco.Weight.no_polarisations_undefined",
    "Dysco.Weight.bad_sample_undefined",
    "Dysco.Weight.nan_undefined",
    "Dysco.Weight.negative_undefined"
   ],
   "note": "negative_undefined is in exact arithmetic; bad_sample_undefined covers any rounding for which the conversion is out of range."
  },
  {
   "property": "C18",
   "status": "proved",
   "theorems": [
    "Dysco.Weight.vec_round_trip",
    "Dysco.Weight.vec_all_zero_undefined"
   ],
   "note": "Exact arithmetic, as stated."
  },
  {
   "property": "C19",
   "status": "proved",
   "theorems": [
    "Dysco.Row.row_no_clip"
   ],
   "note": "binary32/binary64 rounding of every operation is modelled."
  },
  {
   "property": "C20",
   "status": "proved",
   "theorems": [
    "Dysco.Row.row_error"
   ],
   "note": "Exact arithmetic. dither_accurate gives the quantiser error for dithered tables."
  },
  {
   "property": "C21",
   "status": "proved",
   "theorems": [
    "Dysco.RF.rf_no_clip"
   ],
   "note": "binary32/binary64 rounding of every operation is modelled."
  },
  {
   "property": "C22",
   "status": "proved",
   "theorems": [
    "Dysco.RF.rf_error"
   ],
   "note": "Exact arithmetic."
  },
  {
   "property": "C23",
   "status": "proved",
   "theorems": [
    "Dysco.Row.row_special",
    "Dysco.Row.row_finite",
    "Dysco.RF.rf_nan",
    "Dysco.RF.rf_zero_finite"
   ],
   "note": "NaN and zero rows (row normalisation): any rounding. RF zero rows and finite values: exact arithmetic."
  },
  {
   "property": "C24",
   "status": "proved",
   "theorems": [
    "Dysco.Row.half_flagged_clipped",
    "Dysco.Row.row_no_clip"
   ],
   "note": "row_no_clip covers the NaN imaginary part: Counted includes it."
  },
  {
   "property": "C25",
   "status": "proved",
   "theorems": [
    "Dysco.AF.af_encode",
    "Dysco.AF.af_roundtrip"
   ],
   "note": "Exact arithmetic; at least one channel (with no channels the fit reads outside its vectors)."
  },
  {
   "property": "C26",
   "status": "proved",
   "theorems": [
    "Dysco.AF.af_encode",
    "Dysco.AF.af_fit_r64",
    "Dysco.AF.auto_not_bounded"
   ],
   "note": "af_encode: exact arithmetic, every block. af_fit_r64: double arithmetic, for components between 2^-300 and 2^300. auto_not_bounded is the witness for auto-correlations."
  },
  {
   "property": "C27",
   "status": "proved",
   "theorems": [
    "Dysco.AF.af_encode",
    "Dysco.AF.af_fit_r64"
   ],
   "note": "Termination is the existence of a fuel bound from which on the result no longer changes."
  },
  {
   "property": "C28",
   "status": "proved",
   "theorems": [
    "Dysco.Layout.data_layout",
    "Dysco.Layout.weight_layout",
    "Dysco.Layout.writeBlock_spec",
    "Dysco.Layout.readBlock_spec",
    "Dysco.Layout.dataWrites",
    "Dysco.Layout.dataReads",
    "Dysco.Layout.weightWrites",
    "Dysco.Layout.weightReads"
   ],
   "note": "float/double arithmetic; the metadata floats go through their 32-bit little-endian encoding. With AF normalisation the alternative is that the rescaling loop does not end (C27). Weights must be finite, non-negative floats and nCh > 0 (otherwise undefined, see C14)."
  },
  {
   "property": "C29",
   "status": "proved",
   "theorems": [
    "Dysco.TimeBlock.block_buffer_map"
   ],
   "note": ""
  },
  {
   "property": "C30",
   "status": "proved",
   "theorems": [
    "Dysco.StMan.header_round_trip",
    "Dysco.StMan.columnHeaderOffset_spec"
   ],
   "note": "bytes of the header as a list; little-endian, fields in range"
  },
  {
   "property": "C31",
   "status": "proved",
   "theorems": [
    "Dysco.StMan.reopen_restores",
    "Dysco.StMan.reopen_same",
    "Dysco.StMan.reopen_truncates"
   ],
   "note": "settings written by writeHeader and read back by openFile; bit counts outside 0..255 are truncated (reopen_truncates)"
  },
  {
   "property": "C32",
   "status": "proved",
   "theorems": [
    "Dysco.StMan.header_before_data",
    "Dysco.StMan.header_keeps_data",
    "Dysco.StMan.data_keeps_header"
   ],
   "note": "for tables whose header is below 4 GiB"
  },
  {
   "property": "C33",
   "status": "proved",
   "theorems": [
    "Dysco.StMan.open_spec",
    "Dysco.StMan.open_short",
    "Dysco.StMan.open_truncated",
    "Dysco.StMan.open_version",
    "Dysco.StMan.open_columns",
    "Dysco.StMan.open_valid"
   ],
   "note": "a stored block size of 0 with data after the header divides by zero: open_spec gives the undefined outcome"
  },
  {
   "property": "C34",
   "status": "proved",
   "theorems": [
    "Dysco.StMan.row_position",
    "Dysco.StMan.position_row"
   ],
   "note": ""
  },
  {
   "property": "C35",
   "status": "proved",
   "theorems": [
    "Dysco.StMan.layout_regions",
    "Dysco.StMan.regions_disjoint",
    "Dysco.StMan.layout_spec"
   ],
   "note": "for a block below 4 GiB (the code stores the size in 32 bits)"
  },
  {
   "property": "C36",
   "status": "proved",
   "theorems": [
    "Dysco.StMan.read_after_write",
    "Dysco.StMan.run_holds",
    "Dysco.StMan.fresh_of_create"
   ],
   "note": "any list of block writes, reads and header writes on a freshly laid out manager"
  },
  {
   "property": "C37",
   "status": "proved",
   "theorems": [
    "Dysco.StMan.read_unwritten",
    "Dysco.StMan.read_hole",
    "Dysco.StMan.zero_block_data",
    "Dysco.StMan.zero_block_weights"
   ],
   "note": "zero blocks for supported bit counts; AF additionally needs the antennas of the block inside the antenna count"
  },
  {
   "property": "C38",
   "status": "proved",
   "theorems": [
    "Dysco.StMan.reopen_count",
    "Dysco.StMan.reopened_count"
   ],
   "note": ""
  },
  {
   "property": "C39",
   "status": "proved",
   "theorems": [
    "Dysco.StMan.spec_round_trip",
    "Dysco.StMan.spec_students_refused",
    "Dysco.StMan.spec_zero_refused"
   ],
   "note": "The Student-t distribution is written with a name the reader refuses: proved as spec_students_refused"
  },
  {
   "property": "C40",
   "status": "proved",
   "theorems": [
    "Dysco.StMan.row_count",
    "Dysco.StMan.remove_spec"
   ],
   "note": ""
  },
  {
   "property": "C41",
   "status": "proved",
   "theorems": [
    "Dysco.StMan.addColumn_refused",
    "Dysco.StMan.addColumn_accepted",
    "Dysco.StMan.removeColumn_shifts",
    "Dysco.StMan.removeColumn_reads"
   ],
   "note": "removeColumn moves all data offsets by 24 bytes: proved as removeColumn_shifts"
  },
  {
   "property": "C42",
   "status": "proved",
   "theorems": [
    "Dysco.Col.block_size",
    "Dysco.Col.firstDifference_unique",
    "Dysco.Col.rpb_fixed",
    "Dysco.StMan.init_refused",
    "Dysco.StMan.layout_idem",
    "Dysco.StMan.init_repeat"
   ],
   "note": "rows per block of a column under every schedule; the manager side for repeated calls"
  },
  {
   "property": "C43",
   "status": "proved",
   "theorems": [
    "Dysco.Col.cache_bounded",
    "Dysco.Col.encoding_in_cache"
   ],
   "note": "every schedule, including spurious wake-ups"
  },
  {
   "property": "C44",
   "status": "proved",
   "theorems": [
    "Dysco.Col.stores_written",
    "Dysco.Col.drained"
   ],
   "note": ""
  },
  {
   "property": "C45",
   "status": "proved",
   "theorems": [
    "Dysco.Col.no_deadlock",
    "Dysco.Col.steps_bounded",
    "Dysco.Col.can_finish"
   ],
   "note": "programs that add no column (see C51); steps of the client and the threads are bounded by the work plus the spurious wake-ups"
  },
  {
   "property": "C46",
   "status": "proved",
   "theorems": [
    "Dysco.Col.closed_drained",
    "Dysco.Col.ends_only_when_drained"
   ],
   "note": ""
  },
  {
   "property": "C47",
   "status": "proved",
   "theorems": [
    "Dysco.Col.read_result",
    "Dysco.Col.read_waits"
   ],
   "note": "if the block is the current one and was changed, the read returns the buffer"
  },
  {
   "property": "C48",
   "status": "proved",
   "theorems": [
    "Dysco.Col.get_unknown",
    "Dysco.Col.get_uncounted",
    "Dysco.Col.put_get_unknown",
    "Dysco.Col.put_get_uncounted"
   ],
   "note": ""
  },
  {
   "property": "C49",
   "status": "proved",
   "theorems": [
    "Dysco.Col.reopen_keeps",
    "Dysco.Col.reopen_ignores_cache",
    "Dysco.Col.lost_row"
   ],
   "note": "lost_row is a complete run that loses a row"
  },
  {
   "property": "C50",
   "status": "proved",
   "theorems": [
    "Dysco.Col.single_block_fails",
    "Dysco.Col.whole_column"
   ],
   "note": "whole_column: all rows put in order, at least two blocks (or the rows per block fixed by another column)"
  },
  {
   "property": "C51",
   "status": "proved",
   "theorems": [
    "Dysco.Col.add_column_deadlock",
    "Dysco.Col.add_column_reached"
   ],
   "note": ""
  },
  {
   "property": "C52",
   "status": "proved",
   "theorems": [
    "Dysco.Tools.check_eq",
    "Dysco.Tools.check_passes_iff",
    "Dysco.Tools.check_ub_iff"
   ],
   "note": "The key comparison is arbitrary, so NaN times are covered: a NaN time in the first row makes the check index an empty list."
  },
  {
   "property": "C53",
   "status": "proved",
   "theorems": [
    "Dysco.Tools.check_regular",
    "Dysco.Tools.regular_blockSize",
    "Dysco.Tools.checked_rowsPerBlock",
    "Dysco.Tools.checked_compresses",
    "Dysco.Tools.regular_antennas",
    "Dysco.Tools.checked_single_block"
   ],
   "note": "Linked to the column model: after a passed check of a table with several blocks compression never fails; a table of one block passes the check and always fails."
  },
  {
   "property": "C54",
   "status": "proved",
   "theorems": [
    "Dysco.Tools.parse_run",
    "Dysco.Tools.parse_invalid",
    "Dysco.Tools.parse_no_path",
    "Dysco.Tools.parse_no_value",
    "Dysco.Tools.args_cases",
    "Dysco.Tools.parse_usage_iff"
   ],
   "note": "atoi and atof are abstract. args_cases shows that the cases are exhaustive."
  },
  {
   "property": "C55",
   "status": "proved",
   "theorems": [
    "Dysco.Tools.nanRows_spec",
    "Dysco.Tools.nanRows_short"
   ],
   "note": "Also: fewer flags than samples is a read past the end."
  },
  {
   "property": "C56",
   "status": "proved",
   "theorems": [
    "Dysco.Tools.compress_safe",
    "Dysco.Tools.compress_done",
    "Dysco.Tools.compress_again",
    "Dysco.Tools.compress_mixed",
    "Dysco.Tools.compress_one_block_lost"
   ],
   "note": "Crash points are between casacore calls. The exception in the statement is proved as compress_one_block_lost."
  },
  {
   "property": "C57",
   "status": "proved",
   "theorems": [
    "Dysco.Tools.decompress_done",
    "Dysco.Tools.decompress_nothing",
    "Dysco.Tools.decompress_idempotent",
    "Dysco.Tools.decompress_safe",
    "Dysco.Tools.decompress_no_weights"
   ],
   "note": "For tables with both columns; decompress_no_weights shows what happens otherwise."
  },
  {
   "property": "C58",
   "status": "proved",
   "theorems": [
    "Dysco.UVec.program_refines",
    "Dysco.UVec.op_done",
    "Dysco.UVec.sim_visible"
   ],
   "note": "programs choose the next operation from earlier outcomes; constructors, copies, moves, swap and destruction included; copy assignment is C59"
  },
  {
   "property": "C59",
   "status": "proved",
   "theorems": [
    "Dysco.UVec.copy_assign",
    "Dysco.UVec.copy_assign_equal_partial",
    "Dysco.UVec.copy_assign_size_wrong",
    "Dysco.UVec.copy_assign_self",
    "Dysco.UVec.copy_assign_witness",
    "Dysco.UVec.copy_assign_not_equal"
   ],
   "note": "the exact result is proved; the claim a equals b is refuted for the other sizes"
  },
  {
   "property": "C60",
   "status": "proved",
   "theorems": [
    "Dysco.UVec.push_own",
    "Dysco.UVec.push_own_full",
    "Dysco.UVec.insert_own",
    "Dysco.UVec.insert_own_full",
    "Dysco.UVec.resize_own_full",
    "Dysco.UVec.assign_own_full",
    "Dysco.UVec.insert_own_witness"
   ],
   "note": "the cases in which it holds and those in which it fails"
  },
  {
   "property": "C61",
   "status": "proved",
   "theorems": [
    "Dysco.End.weights_end_to_end",
    "Dysco.End.row_end_to_end",
    "Dysco.End.rf_end_to_end",
    "Dysco.End.data_end_to_end"
   ],
   "note": "write run: any reachable closed state of the column model (C45-C47) with any number of encoder threads; file: any interleaving of operations of other columns; the last column wrote the last block; data_end_to_end gives the exact decoded values for all three normalisations; row_end_to_end, rf_end_to_end and weights_end_to_end the error bounds in float arithmetic. No error bound for antenna-frequency normalisation in float arithmetic. Blocks are all full."
  },
  {
   "property": "C62",
   "status": "proved",
   "theorems": [
    "Dysco.Col.add_column_forgets",
    "Dysco.Col.add_column_loses_rows"
   ],
   "note": ""
  },
  {
   "property": "C63",
   "status": "proved",
   "theorems": [
    "Dysco.UVec.eqv_iff",
    "Dysco.UVec.less_iff",
    "Dysco.UVec.lessEq_iff",
    "Dysco.UVec.compare_trichotomy",
    "Dysco.UVec.compare_unordered"
   ],
   "note": ""
  },
  {
   "property": "C64",
   "status": "proved",
   "theorems": [
    "Dysco.UVec.program_refines",
    "Dysco.UVec.no_throw",
    "Dysco.UVec.sim_no_leak"
   ],
   "note": "the invariant Sim states ownership and absence of leaks; equal allocators, trivial element types"
  },
  {
   "property": "C65",
   "status": "proved",
   "theorems": [
    "Dysco.Tools.reorderName_spec",
    "Dysco.Tools.reorderName_none"
   ],
   "note": ""
  },
  {
   "property": "C66",
   "status": "proved",
   "theorems": [
    "Dysco.StMan.reopen_prepare"
   ],
   "note": "the row count is that given to open; reopening is modelled from the written file to the prepared columns; hypothesis: last column stored the last block"
  },
  {
   "property": "C67",
   "status": "proved",
   "theorems": [
    "Dysco.Row.row_error_float",
    "Dysco.Row.row_max_overflows"
   ],
   "note": "float metadata and multiplication rounded with r32 and r64; the bound is stated for rows with maximum and scale factor at most 2^127; the overflow for larger ones is proved with a witness"
  },
  {
   "property": "C68",
   "status": "proved",
   "theorems": [
    "Dysco.Quantile.inv_ends",
    "Dysco.Quantile.arith_rnd",
    "Dysco.Quantile.arith_extended"
   ],
   "note": "Termination for an arbitrary function and rounding; the x86 long double format satisfies the conditions."
  },
  {
   "property": "C69",
   "status": "proved",
   "theorems": [
    "Dysco.Quantile.inv_normal",
    "Dysco.Quantile.bisect_accurate",
    "Dysco.Quantile.inv_grid"
   ],
   "note": "The error function is a parameter with an accuracy assumption; the arithmetic is x87 extended precision without overflow."
  },
  {
   "property": "C70",
   "status": "proved",
   "theorems": [
    "Dysco.Quantile.gaussian_table"
   ],
   "note": "Long double product, then conversion to float; the true distribution is defined as an integral."
  },
  {
   "property": "C71",
   "status": "proved",
   "theorems": [
    "Dysco.Quantile.uniform_table"
   ],
   "note": "All arithmetic with rounding."
  },
  {
   "property": "C72",
   "status": "proved",
   "theorems": [
    "Dysco.Quantile.truncated_table"
   ],
   "note": "GSL functions are parameters with accuracy assumptions (GslNormal), shown to be satisfiable."
  },
  {
   "property": "C73",
   "status": "proved",
   "theorems": [
    "Dysco.TimeBlock.maxAntennaIndex_spec"
   ],
   "note": ""
  },
  {
   "property": "C74",
   "status": "proved",
   "theorems": [
    "Dysco.Col.writes_in_order",
    "Dysco.Col.seeded_bytes",
    "Dysco.Col.seeded_deterministic",
    "Dysco.Col.seeded_order_matters",
    "Dysco.Col.threadCount_spec"
   ],
   "note": "seeded_order_matters: the bytes depend on the interleaving when blocks are stored out of order"
  },
  {
   "property": "C75",
   "status": "proved",
   "theorems": [
    "Dysco.StMan.made_spec",
    "Dysco.StMan.clone_spec",
    "Dysco.StMan.spec_drops_seed"
   ],
   "note": ""
  },
  {
   "property": "C76",
   "status": "proved",
   "theorems": [
    "Dysco.Timer.measured_time",
    "Dysco.Timer.run_running",
    "Dysco.Timer.runTime_nonneg",
    "Dysco.Timer.seconds_spec"
   ],
   "note": ""
  },
  {
   "property": "C77",
   "status": "proved",
   "theorems": [
    "Dysco.Timer.minutes_right",
    "Dysco.Timer.scaled_right",
    "Dysco.Timer.hours_wrong",
    "Dysco.Timer.days_wrong",
    "Dysco.Timer.short_wrong",
    "Dysco.Timer.below_millisecond",
    "Dysco.Timer.no_microseconds",
    "Dysco.Timer.short_unit",
    "Dysco.Timer.short_right"
   ],
   "note": "the hours and days texts are wrong in the code; the exact error is proved"
  },
  {
   "property": "C78",
   "status": "proved",
   "theorems": [
    "Dysco.RF.rf_error_float"
   ],
   "note": "float/double arithmetic; K i = 1 is always allowed"
  },
  {
   "property": "C79",
   "status": "proved",
   "theorems": [
    "Dysco.Prepare.uniform_usable",
    "Dysco.Prepare.gaussian_usable",
    "Dysco.Prepare.truncated_usable",
    "Dysco.Prepare.sqrt3_eq",
    "Dysco.Prepare.err_eq",
    "Dysco.Prepare.encoder_determined",
    "Dysco.End.concrete_quantised",
    "Dysco.End.prepared_row",
    "Dysco.End.prepared_rf"
   ],
   "note": "Student's t tables are in C108. The accuracy assumptions about erf and the GSL functions are hypotheses. prepared_row and prepared_rf bound the error by the precision of the quantiser; concrete_quantised gives it as a number."
  },
  {
   "property": "C80",
   "status": "proved",
   "theorems": [
    "Dysco.AF.af_error_float"
   ],
   "note": "Error analysis in binary64 with binary32 metadata; the factors' ranges are hypotheses about the stored metadata (a decoder can check them)."
  },
  {
   "property": "C81",
   "status": "proved",
   "theorems": [
    "Dysco.AF.af_nonfinite"
   ],
   "note": "Any arithmetic; termination itself is C26/C80."
  },
  {
   "property": "C82",
   "status": "proved",
   "theorems": [
    "Dysco.AF.normalize_range",
    "Dysco.AF.af_ends",
    "Dysco.AF.sqrtMono_of_nearest"
   ],
   "note": "Sizes: at most 2^14 antennas, 2^24 rows and rows times channels. The number of iterations is not bounded by a formula."
  },
  {
   "property": "C83",
   "status": "proved",
   "theorems": [
    "Dysco.AF.af_error_moderate",
    "Dysco.End.af_values",
    "Dysco.End.af_end_to_end",
    "Dysco.End.prepared_af"
   ],
   "note": "Autocorrelations are only covered by the NaN clause (see AF.auto_not_bounded). Counted cross-correlations with a zero or subnormal stored factor are excluded."
  },
  {
   "property": "C84",
   "status": "proved",
   "theorems": [
    "Dysco.Stochastic.dither_mean_float",
    "Dysco.Stochastic.dither_mean_level",
    "Dysco.End.prepared_dither_mean"
   ],
   "note": "Float arithmetic version of C10; the bias at the levels shows that the bound of C10 does not hold in float arithmetic."
  },
  {
   "property": "C85",
   "status": "proved",
   "theorems": [
    "Dysco.Col.update_column",
    "Dysco.Col.update_values",
    "Dysco.Col.update_lossless",
    "Dysco.Col.readWrite_updates",
    "Dysco.Col.update_stores"
   ],
   "note": "Encoding is abstract (a function on the rows of a block and how often it was stored). The condition on puts cannot be dropped: Dysco.Col.lost_row."
  },
  {
   "property": "C86",
   "status": "proved",
   "theorems": [
    "Dysco.Col.stale_rows",
    "Dysco.Col.fresh_rows",
    "Dysco.Col.stale_row"
   ],
   "note": "stale_row is a complete run whose file holds a row of another block."
  },
  {
   "property": "C87",
   "status": "proved",
   "theorems": [
    "Dysco.Multi.column_alone"
   ],
   "note": "The columns share the rows per block and the number of blocks; the file is kept per column, which C35 justifies. Adding and removing columns is not part of the programs."
  },
  {
   "property": "C88",
   "status": "proved",
   "theorems": [
    "Dysco.Multi.header_alone",
    "Dysco.Multi.init_succeeds"
   ],
   "note": ""
  },
  {
   "property": "C89",
   "status": "proved",
   "theorems": [
    "Dysco.Multi.multi_no_deadlock",
    "Dysco.Multi.multi_steps_bounded",
    "Dysco.Multi.multi_can_finish"
   ],
   "note": ""
  },
  {
   "property": "C90",
   "status": "proved",
   "theorems": [
    "Dysco.Multi.multi_whole",
    "Dysco.Multi.multi_update",
    "Dysco.Multi.whole_rpb"
   ],
   "note": "The encoding is abstract, as in C85."
  },
  {
   "property": "C91",
   "status": "proved",
   "theorems": [
    "Dysco.Stream.calls_atomic",
    "Dysco.Stream.blocks_atomic",
    "Dysco.Stream.stream_progress"
   ],
   "note": "This justifies taking the calls as single steps in the models of the manager and of the columns. That the header is written alone when the rows per block become known is C88."
  },
  {
   "property": "C92",
   "status": "proved",
   "theorems": [
    "Dysco.Stream.header_race",
    "Dysco.Stream.raced_file"
   ],
   "note": "In C++ the unsynchronised use of the stream is undefined behaviour; the model shows what happens if every call on the stream is a single step."
  },
  {
   "property": "C93",
   "status": "proved",
   "theorems": [
    "Dysco.World.world_inv",
    "Dysco.World.blocks_agree"
   ],
   "note": "The rows that the client decodes when it loads a block written earlier are not connected with the bytes here."
  },
  {
   "property": "C94",
   "status": "proved",
   "theorems": [
    "Dysco.World.laid_antennas",
    "Dysco.World.world_inv"
   ],
   "note": "world_inv says that the header is written once, in a LaidOut state; laid_antennas what the layout is."
  },
  {
   "property": "C95",
   "status": "proved",
   "theorems": [
    "Dysco.World.world_closed",
    "Dysco.World.table_run"
   ],
   "note": ""
  },
  {
   "property": "C96",
   "status": "proved",
   "theorems": [
    "Dysco.World.table_end_to_end"
   ],
   "note": "Same limits as C79 and C83: autocorrelations and zero or subnormal factors of antenna-frequency normalisation are only covered by the NaN clause."
  },
  {
   "property": "C97",
   "status": "proved",
   "theorems": [
    "Dysco.World.table_closes",
    "Dysco.World.encode_rows",
    "Dysco.World.column_encodes"
   ],
   "note": "That every schedule ends is Dysco.Multi.multi_steps_bounded (C89)."
  },
  {
   "property": "C98",
   "status": "proved",
   "theorems": [
    "Dysco.Session.load_spec",
    "Dysco.Session.session_bytes",
    "Dysco.Session.session_count"
   ],
   "note": "The state notes what written bytes decode to; load_spec shows that loading from the bytes gives just that."
  },
  {
   "property": "C99",
   "status": "proved",
   "theorems": [
    "Dysco.Session.table_created",
    "Dysco.Session.table_reopened",
    "Dysco.Session.table_updated",
    "Dysco.Session.table_read",
    "Dysco.Session.session_update",
    "Dysco.Session.runs_untouched"
   ],
   "note": "Same limits as C85 (puts do not go back to a block) and C96 (errors)."
  },
  {
   "property": "C100",
   "status": "proved",
   "theorems": [
    "Dysco.Session.update_closes",
    "Dysco.Session.session_closes",
    "Dysco.Session.fit_recoded",
    "Dysco.Session.fit_recodes"
   ],
   "note": "With antenna-frequency normalisation the fit of decoded values is not shown to end (C82 needs values of moderate range)."
  },
  {
   "property": "C101",
   "status": "proved",
   "theorems": [
    "Dysco.Session.update_close",
    "Dysco.Session.block_overwritten",
    "Dysco.Session.recoded_close",
    "Dysco.Session.runs_stored"
   ],
   "note": "Same limits as C99; the error bounds are those of C96. Rows that are not put enter with what they were decoded to."
  },
  {
   "property": "C102",
   "status": "proved",
   "theorems": [
    "Dysco.Compress.dscompress_runs",
    "Dysco.Compress.dscompress_throws",
    "Dysco.Compress.dscompress_breaks",
    "Dysco.Compress.dscompress_check_breaks"
   ],
   "note": "Not modelled: -reorder, shapes of cells (a cell is the list of its values), output."
  },
  {
   "property": "C103",
   "status": "proved",
   "theorems": [
    "Dysco.Compress.createColumns_spec",
    "Dysco.World.twins_reach"
   ],
   "note": ""
  },
  {
   "property": "C104",
   "status": "proved",
   "theorems": [
    "Dysco.Compress.dscompress_end_to_end",
    "Dysco.Compress.columnwise_calls"
   ],
   "note": "Error bounds and limits as in C96; at least two blocks (see C11 for one block)."
  },
  {
   "property": "C105",
   "status": "proved",
   "theorems": [
    "Dysco.Compress.decompress_returns",
    "Dysco.Compress.dscompress_end_to_end"
   ],
   "note": "decompress_returns takes the result of dscompress_end_to_end (Output and ReadsBack) and gives the table after decompress.cc:15-22. The reads of each column begin with the manager as it was opened. Not modelled: Reorder."
  },
  {
   "property": "C106",
   "status": "proved",
   "theorems": [
    "Dysco.Col.shutdown_again",
    "Dysco.Col.read_after_close",
    "Dysco.Col.write_after_close",
    "Dysco.Col.reread_current",
    "Dysco.Col.closed_sample_reads"
   ],
   "note": "The calls after shutdown are made in any closed state that some program and schedule reach. reread_current and closed_sample_reads show the undefined read."
  },
  {
   "property": "C107",
   "status": "proved",
   "theorems": [
    "Dysco.World.table_settings",
    "Dysco.World.table_by_settings",
    "Dysco.Prepare.construct_decode",
    "Dysco.Prepare.quantiser_exists",
    "Dysco.Prepare.quantiser_decode",
    "Dysco.World.reads_congr"
   ],
   "note": "Tied to the options of dscompress in dscompress_end_to_end (C104). Library functions are assumed to give the same results to reader and writer."
  },
  {
   "property": "C108",
   "status": "proved",
   "theorems": [
    "Dysco.End.gaussian_quantised",
    "Dysco.End.truncated_quantised",
    "Dysco.End.student_quantised",
    "Dysco.End.student_coarse",
    "Dysco.Compress.options_quantised",
    "Dysco.End.ascending_quantised"
   ],
   "note": "The accuracy of erf and of the GSL functions is a hypothesis; it can be met (examples). For the Gaussian distribution the quantiser exists once the bisection has ended, which it does."
  },
  {
   "property": "C109",
   "status": "proved",
   "theorems": [
    "Dysco.Compress.atoi_number",
    "Dysco.Compress.atoi_negative",
    "Dysco.Compress.atoi_text",
    "Dysco.Compress.command_settings",
    "Dysco.Compress.createColumns_zero",
    "Dysco.Compress.command_end_to_end"
   ],
   "note": "atof is abstract. The result of atoi outside the range of int, undefined in C, is an arbitrary function."
  },
  {
   "property": "C110",
   "status": "proved",
   "theorems": [
    "Dysco.AF.af_autocorrelations_lost"
   ],
   "note": "Behaviour that a user of the default normalisation would not expect; see DESIGN.md."
  },
  {
   "property": "C111",
   "status": "proved",
   "theorems": [
    "Dysco.AF.af_unusable",
    "Dysco.AF.weak_antenna_lost"
   ],
   "note": "Behaviour that a user of the default normalisation would not expect; see DESIGN.md."
  },
  {
   "property": "C112",
   "status": "proved",
   "theorems": [
    "Dysco.DictMem.build_represents",
    "Dysco.DictMem.encoder_delivered",
    "Dysco.DictMem.copied_encoder_undefined"
   ],
   "note": "No code in the library copies an encoder; the last theorem shows what would happen."
  },
  {
   "property": "C113",
   "status": "proved",
   "theorems": [
    "Dysco.Tools.compress_any",
    "Dysco.Tools.compress_twice"
   ],
   "note": "Opening, renaming, adding and removing columns are the only casacore calls; each is atomic and throws as documented in ToolsModel. Shapes of cells are not modelled."
  },
  {
   "property": "C114",
   "status": "proved",
   "theorems": [
    "Dysco.Tools.decompress_any"
   ],
   "note": "As C113."
  },
  {
   "property": "C115",
   "status": "proved",
   "theorems": [
    "Dysco.AF.encode_outside",
    "Dysco.End.data_encode_needs",
    "Dysco.End.weight_encode_needs",
    "Dysco.World.thread_needs",
    "Dysco.World.late_antenna",
    "Dysco.World.late_antenna_example"
   ],
   "note": "Undefined behaviour is `none`, or the absence of a step. The converse (complete blocks with known antennas are encoded) is part of C97."
  },
  {
   "property": "C116",
   "status": "proved",
   "theorems": [
    "Dysco.BytePacker.pack_prefix",
    "Dysco.BytePacker.round_trip_prefix",
    "Dysco.BytePacker.too_large_damages"
   ],
   "note": "The unassigned symbols are taken as arbitrary 32-bit values."
  },
  {
   "property": "C117",
   "status": "proved",
   "theorems": [
    "Dysco.Layout.data_incomplete",
    "Dysco.Layout.weight_incomplete",
    "Dysco.End.RunOf.written",
    "Dysco.World.table_end_to_end"
   ],
   "note": "The rows that loadBlock decodes after the last row of the table need antennas of rows that do not exist; the model takes these as given."
  },
  {
   "property": "C118",
   "status": "proved",
   "theorems": [
    "Dysco.AF.af_zero_channel",
    "Dysco.AF.af_zero_block"
   ],
   "note": "For rows whose antennas have the factor zero in the file, C111 gives zero or NaN."
  },
  {
   "property": "C119",
   "status": "proved",
   "theorems": [
    "Dysco.StMan.readonly_file",
    "Dysco.StMan.readonly_same",
    "Dysco.StMan.readonly_throws",
    "Dysco.StMan.readonly_stale",
    "Dysco.StMan.failed_stays",
    "Dysco.StMan.last_read_clears",
    "Dysco.StMan.failed_throws"
   ],
   "note": "Both kinds of stream are modelled; initIn_true, addColumnIn_true, removeColumnIn_true and manStep_block show that the writable one is the model of the other claims."
  },
  {
   "property": "C120",
   "status": "proved",
   "theorems": [
    "Dysco.Stochastic.quantiser_symmetric",
    "Dysco.Stochastic.uniform_symmetric",
    "Dysco.Stochastic.boundary_included",
    "Dysco.Quantile.middle_zero",
    "Dysco.Quantile.gaussian_zero",
    "Dysco.Quantile.uniform_zero",
    "Dysco.Quantile.gauss_odd"
   ],
   "note": "Rounded fractions c and 1-c need not add up to exactly one; C70 to C72 bound the levels of the rounded tables."
  },
  {
   "property": "C121",
   "status": "proved",
   "theorems": [
    "Dysco.Damaged.data_outcome",
    "Dysco.Damaged.file_outcome",
    "Dysco.Damaged.weight_outcome",
    "Dysco.Damaged.valid_objects",
    "Dysco.Damaged.opened_settings",
    "Dysco.Damaged.settings_not_checked"
   ],
   "note": "For a data column with 31 bits the table cannot be allocated; this depends on the memory and is excluded from the classification."
  },
  {
   "property": "C122",
   "status": "proved",
   "theorems": [
    "Dysco.Col.block_refused",
    "Dysco.Col.bad_not_written",
    "Dysco.Col.closed_no_bad",
    "Dysco.Col.bad_block_ends",
    "Dysco.Col.copied_iff",
    "Dysco.Col.copied_lost"
   ],
   "note": "That the old column is removed when all rows were put is stmanmodifier.h:121-135 (C56); here this is the state between the last put and closing."
  },
  {
   "property": "C123",
   "status": "proved",
   "theorems": [
    "Dysco.Tools.reorder_safe",
    "Dysco.Tools.reorder_refused",
    "Dysco.Tools.reorder_overwrites",
    "Dysco.Tools.compressed_copied_iff"
   ],
   "note": "What casacore does in deepCopy, markForDelete and rename is assumed as described in Reorder.lean; a copy under a temporary name is complete only after deepCopy has returned."
  },
  {
   "property": "C124",
   "status": "proved",
   "theorems": [
    "Dysco.Col.copy_zeros"
   ],
   "note": "Negative: one column whose blocks are the only ones in the file. That deepCopy reads the rows through the open columns is assumed of casacore."
  },
  {
   "property": "C125",
   "status": "proved",
   "theorems": [
    "Dysco.StMan.open_indeterminate",
    "Dysco.StMan.length_indeterminate"
   ],
   "note": "open_indeterminate for the model of openFile; length_indeterminate is negative."
  },
  {
   "property": "C126",
   "status": "proved",
   "theorems": [
    "Dysco.Multi.no_data_race",
    "Dysco.Multi.addColumn_race",
    "Dysco.Multi.removeColumn_race"
   ],
   "note": "no_data_race for put, get and closing; the other two are negative."
  },
  {
   "property": "C127",
   "status": "proved",
   "theorems": [
    "Dysco.Multi.split_same",
    "Dysco.Multi.split_file",
    "Dysco.Multi.split_steps",
    "Dysco.Multi.one_mutex",
    "Dysco.Multi.split_no_data_race"
   ],
   "note": "refinement of the one-step loadBlock of the model by two critical sections."
  },
  {
   "property": "C128",
   "status": "proved",
   "theorems": [
    "Dysco.Stmt.statements_same",
    "Dysco.Stmt.one_holder",
    "Dysco.Stmt.never_dangling",
    "Dysco.Stmt.statements_closed",
    "Dysco.Stmt.statements_no_deadlock",
    "Dysco.Stmt.statements_bounded",
    "Dysco.Stmt.statements_finish"
   ],
   "note": "simulation of the statement level model by ColumnModel; freedom from deadlock and finishing for programs that add no columns, as in C45."
  },
  {
   "property": "C129",
   "status": "proved",
   "theorems": [
    "Dysco.MStmt.mstatements_same",
    "Dysco.MStmt.mone_holder",
    "Dysco.MStmt.mclient_one",
    "Dysco.MStmt.mnever_dangling",
    "Dysco.MStmt.mstatements_no_deadlock",
    "Dysco.MStmt.mstatements_whole",
    "Dysco.MStmt.mstatements_update",
    "Dysco.MStmt.mstatements_bounded",
    "Dysco.MStmt.mstatements_finish"
   ],
   "note": "simulation of the statement level model with several columns by MultiModel; calls of the manager are single steps (C91)."
  },
  {
   "property": "C130",
   "status": "proved",
   "theorems": [
    "Dysco.Lock.manager_same",
    "Dysco.Lock.stream_safe",
    "Dysco.Lock.manager_one",
    "Dysco.Lock.manager_no_deadlock",
    "Dysco.Lock.manager_whole",
    "Dysco.Lock.manager_update",
    "Dysco.Lock.manager_bounded",
    "Dysco.Lock.manager_finish"
   ],
   "note": "simulation of the model with interrupted calls of the manager by MStmtModel; the position of the stream is a part of the file, failures of the stream are left out."
  },
  {
   "property": "C131",
   "status": "proved",
   "theorems": [
    "Dysco.StMan.record_round_trip",
    "Dysco.StMan.record_determined",
    "Dysco.StMan.record_cut",
    "Dysco.StMan.string_wraps",
    "Dysco.StMan.string_lost",
    "Dysco.StMan.serialize_record"
   ],
   "note": "induction over the items; a long double has 80 bits in 16 bytes; floating point numbers are their bits."
  },
  {
   "property": "C132",
   "status": "proved",
   "theorems": [
    "Dysco.Layout.any_block_data",
    "Dysco.Layout.any_block_weights",
    "Dysco.Layout.data_damage",
    "Dysco.Layout.weight_damage",
    "Dysco.Layout.data_byte_damage",
    "Dysco.Layout.row_factor_damage",
    "Dysco.Layout.antenna_factor_damage",
    "Dysco.Layout.weight_byte_damage"
   ],
   "note": "from the stream form of unpack: symbol j is bits j*b to (j+1)*b - 1 for any bytes; the codec reads only announced entries."
  },
  {
   "property": "C133",
   "status": "proved",
   "theorems": [
    "Dysco.Layout.row_independent",
    "Dysco.Layout.rf_not_independent",
    "Dysco.Layout.weights_not_independent"
   ],
   "note": "the negative part is shown by concrete blocks, evaluated by the kernel."
  },
  {
   "property": "C134",
   "status": "proved",
   "theorems": [
    "Dysco.Weight.symbol_stable",
    "Dysco.Layout.writeBlock_determined",
    "Dysco.Layout.weights_recompressed",
    "Dysco.Weight.tiny_weights_unstable"
   ],
   "note": "largest weight zero or at least 2^-126; for subnormal maxima the claim is not made. The failure for maxima that are no normal floats is a concrete value."
  },
  {
   "property": "C135",
   "status": "proved",
   "theorems": [
    "Dysco.Layout.row_scaled",
    "Dysco.Layout.weights_scaled",
    "Dysco.Layout.rf_scaled",
    "Dysco.Layout.af_scaled",
    "Dysco.AF.sqrtPow_of_nearest"
   ],
   "note": "rows whose largest counted value is zero are excluded, because their factor is one (with row-frequency normalisation they may not change). For antenna-frequency normalisation the square root has to be monotone and to commute with powers of four, which the correctly rounded one does."
  },
  {
   "property": "C136",
   "status": "proved",
   "theorems": [
    "Dysco.Stochastic.dither_monotone",
    "Dysco.Stochastic.dither_antitone",
    "Dysco.Stochastic.dither_sign",
    "Dysco.Layout.row_order",
    "Dysco.Layout.weights_order",
    "Dysco.Layout.order_other_dither",
    "Dysco.Layout.tiny_sign_lost",
    "Dysco.Layout.rf_order",
    "Dysco.Layout.rf_order_channels"
   ],
   "note": "order and sign at the level of blocks for row and row-frequency normalisation and weights; the negative parts are concrete values. Antenna-frequency normalisation is not covered."
  },
  {
   "property": "C137",
   "status": "proved",
   "theorems": [
    "Dysco.Compress.report_determines",
    "Dysco.Compress.report_of_manager"
   ],
   "note": "the text of a double is left open; the manager is the one that createColumns makes."
  },
  {
   "property": "C138",
   "status": "proved",
   "theorems": [
    "Dysco.Layout.rf_polarisations",
    "Dysco.Layout.rf_permuted",
    "Dysco.Layout.row_permuted",
    "Dysco.Layout.weights_permuted",
    "Dysco.Layout.row_polarisations_not_separate",
    "Dysco.Layout.af_polarisations",
    "Dysco.Layout.af_written_each",
    "Dysco.AF.encode_polarisation",
    "Dysco.AF.encode_ends_each"
   ],
   "note": "the dither values are those of the sample, so they move with it; the order of rows and channels is not covered for antenna-frequency normalisation, where sums depend on it; the negative part is a concrete row, evaluated by the kernel."
  },
  {
   "property": "C139",
   "status": "proved",
   "theorems": [
    "Dysco.Multi.one_block"
   ],
   "note": "extends C50 to several columns and to reads; that the call ends at all is C89."
  },
  {
   "property": "C140",
   "status": "proved",
   "theorems": [
    "Dysco.Layout.row_mean",
    "Dysco.Layout.prepared_row_mean"
   ],
   "note": "row normalisation; C84 is the quantiser alone. A number within rounding of the lowest level is left out: there the quantiser does not dither."
  },
  {
   "property": "C141",
   "status": "proved",
   "theorems": [
    "Dysco.Twister.output_uniform",
    "Dysco.Twister.outputs_bijective",
    "Dysco.Twister.fair_high",
    "Dysco.Twister.fair_low",
    "Dysco.Twister.dither_uniform",
    "Dysco.Twister.thread_seed",
    "Dysco.Twister.static_bytes",
    "Dysco.Layout.row_mean_states"
   ],
   "note": "the mean is over all states; a seed has only 32 bits and reaches 2^32 of them. libstdc++ before GCC 11, which rejects outputs from 2^31, is not modelled."
  },
  {
   "property": "C142",
   "status": "proved",
   "theorems": [
    "Dysco.Layout.rf_mean",
    "Dysco.Layout.rf_mean_states"
   ],
   "note": ""
  },
  {
   "property": "C143",
   "status": "proved",
   "theorems": [
    "Dysco.Layout.af_mean",
    "Dysco.Layout.af_mean_states"
   ],
   "note": ""
  },
  {
   "property": "C144",
   "status": "proved",
   "theorems": [
    "Dysco.Twister.outputs_independent",
    "Dysco.Twister.average_error",
    "Dysco.Layout.row_average"
   ],
   "note": "the block is row-normalised; average_error does not depend on the normalisation"
  },
  {
   "property": "C145",
   "status": "proved",
   "theorems": [
    "Dysco.Layout.af_average",
    "Dysco.Layout.prepared_af_average"
   ],
   "note": ""
  },
  {
   "property": "C146",
   "status": "proved",
   "theorems": [
    "Dysco.Layout.rf_average",
    "Dysco.Layout.prepared_rf_average"
   ],
   "note": ""
  },
  {
   "property": "C147",
   "status": "proved",
   "theorems": [
    "Dysco.Layout.row_twice",
    "Dysco.Layout.uniform_twice",
    "Dysco.Layout.uniform_levels",
    "Dysco.Layout.row_again",
    "Dysco.Layout.row_top",
    "Dysco.Row.level_keep"
   ],
   "note": ""
  },
  {
   "property": "C148",
   "status": "proved",
   "theorems": [
    "Dysco.StMan.target_iff",
    "Dysco.StMan.accesses_spec",
    "Dysco.StMan.made_target"
   ],
   "note": ""
  },
  {
   "property": "C149",
   "status": "proved",
   "theorems": [
    "Dysco.Threads.group_spec",
    "Dysco.Threads.start_spec"
   ],
   "note": ""
  },
  {
   "property": "C150",
   "status": "proved",
   "theorems": [
    "Dysco.Threads.init_complete",
    "Dysco.Threads.init_fails",
    "Dysco.Threads.init_again",
    "Dysco.Threads.stop_raises"
   ],
   "note": ""
  },
  {
   "property": "C151",
   "status": "proved",
   "theorems": [
    "Dysco.Col.threadless",
    "Dysco.Col.threadless_stuck",
    "Dysco.Col.threadless_close"
   ],
   "note": ""
  },
  {
   "property": "C152",
   "status": "proved",
   "theorems": [
    "Dysco.Arrays.get_row",
    "Dysco.Arrays.get_unwritten",
    "Dysco.Arrays.put_row",
    "Dysco.Arrays.put_get",
    "Dysco.Arrays.run_copies",
    "Dysco.Arrays.fill_getData",
    "Dysco.Arrays.load_setData",
    "Dysco.Arrays.array_row"
   ],
   "note": ""
  },
  {
   "property": "C153",
   "status": "proved",
   "theorems": [
    "Dysco.Failed.gets_fresh",
    "Dysco.Failed.get_fresh",
    "Dysco.Failed.get_fails",
    "Dysco.Failed.misread",
    "Dysco.Failed.overwritten",
    "Dysco.Failed.read_fails_changed",
    "Dysco.Failed.put_fails"
   ],
   "note": ""
  }
 ]
}
