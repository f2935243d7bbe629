{
 "claims": [
  {
   "property": "C01",
   "status": "proved",
   "theorems": [
    "Neo.Props.C01_fft_is_dft",
    "Neo.Props.C01_every_kernel",
    "Neo.Props.C01_out_of_place"
   ],
   "note": "Default plan, all four kernels, both directions, exact arithmetic over the complex numbers; also the out-of-place overloads."
  },
  {
   "property": "C02",
   "status": "proved",
   "theorems": [
    "Neo.Props.C02_roundtrip",
    "Neo.Props.C02_injective"
   ],
   "note": "Both compositions and injectivity."
  },
  {
   "property": "C03",
   "status": "partial",
   "theorems": [
    "Neo.Props.C03_kernels_agree_partial",
    "Neo.Props.C03_v4_order_one",
    "Neo.Props.C03_false_at_order_one",
    "Neo.Props.C03_any_arithmetic",
    "Neo.Props.C03_bit_exact"
   ],
   "note": "Holds for every order >= 2 and for v1-v3 at order 1; kernel v4 is wrong at order 1 (C03_v4_order_one, C03_false_at_order_one). C03_any_arithmetic and C03_bit_exact show that the agreement is bit for bit in every arithmetic, whatever its operations do."
  },
  {
   "property": "C04",
   "status": "partial",
   "theorems": [
    "Neo.Props.C04_order_zero_out_of_bounds",
    "Neo.Props.C04_reorder_partial",
    "Neo.Props.C04_split_out_of_bounds"
   ],
   "note": "False of the code: every order-0 call reads x[1] out of bounds (C04_order_zero_out_of_bounds; split plan: C04_split_out_of_bounds). Only the reordering step is in bounds."
  },
  {
   "property": "C05",
   "status": "proved",
   "theorems": [
    "Neo.Props.C05_plan_orders",
    "Neo.Props.C05_wrong_size"
   ],
   "note": "Default plan."
  },
  {
   "property": "C06",
   "status": "proved",
   "theorems": [
    "Neo.Props.C06_bitrev",
    "Neo.Props.C06_bitrev_interleaved",
    "Neo.Props.C06_bitrev_split"
   ],
   "note": "Table-driven and table-free variants, complex, interleaved and split buffers."
  },
  {
   "property": "C07",
   "status": "proved",
   "theorems": [
    "Neo.Props.C07_digitrev"
   ],
   "note": ""
  },
  {
   "property": "C08",
   "status": "proved",
   "theorems": [
    "Neo.Props.C08_rfft",
    "Neo.Props.C08_symmetry"
   ],
   "note": "Any reachable plan state (the plan buffer persists between calls), exact arithmetic."
  },
  {
   "property": "C09",
   "status": "proved",
   "theorems": [
    "Neo.Props.C09_irfft",
    "Neo.Props.C09_irfft_extra",
    "Neo.Props.C09_roundtrip"
   ],
   "note": "Spectrum buffers of N/2+1..N elements; any reachable plan state."
  },
  {
   "property": "C10",
   "status": "proved",
   "theorems": [
    "Neo.Props.C10_deinterleave",
    "Neo.Props.C10_fft_deinterleave"
   ],
   "note": "Every N >= 1, odd or even, plus the end-to-end version with the FFT plan."
  },
  {
   "property": "C11",
   "status": "proved",
   "theorems": [
    "Neo.Props.C11_bluestein",
    "Neo.Props.C11_out_of_place",
    "Neo.Props.C11_roundtrip",
    "Neo.Props.C11_too_large",
    "Neo.Props.C11_size_zero_out_of_bounds"
   ],
   "note": "Exact arithmetic, fallback plan; sizes with 2n+1 <= 2^27; larger sizes throw (C11_too_large); size 0 is out of bounds (C11_size_zero_out_of_bounds)."
  },
  {
   "property": "C12",
   "status": "proved",
   "theorems": [
    "Neo.Props.C12_naive_dft",
    "Neo.Props.C12_roundtrip",
    "Neo.Props.C12_mismatch"
   ],
   "note": "Exact arithmetic."
  },
  {
   "property": "C13",
   "status": "proved",
   "theorems": [
    "Neo.Props.C13_split",
    "Neo.Props.C13_equals_interleaved",
    "Neo.Props.C13_out_of_place",
    "Neo.Props.C13_order_31_no_transform",
    "Neo.Props.C13_order_zero_out_of_bounds"
   ],
   "note": "Exact arithmetic, fallback plan, orders 1 to 30 (comparison with the interleaved plan up to its maximum order 27). At order 31 no butterfly runs (C13_order_31_no_transform); order 0 is out of bounds."
  },
  {
   "property": "C14",
   "status": "partial",
   "theorems": [
    "Neo.Props.C14_dif2r_partial",
    "Neo.Props.C14_dif2i_partial",
    "Neo.Props.C14_false",
    "Neo.Props.C14_order_1",
    "Neo.Props.C14_roundtrip",
    "Neo.Props.C14_dif2i_order_31_overflow"
   ],
   "note": "False of the code from order 2 on (C14_false): both plans exchange the directions. Proved: forward computes the unscaled inverse transform and backward the forward one, every order (iterative plan up to order 30; from 31 on an int overflows), so round trips are right."
  },
  {
   "property": "C15",
   "status": "partial",
   "theorems": [
    "Neo.Props.C15_partial",
    "Neo.Props.C15_false",
    "Neo.Props.C15_even_bins_partial",
    "Neo.Props.C15_roundtrip",
    "Neo.Props.C15_order_zero_out_of_bounds"
   ],
   "note": "False of the code at every order from 1 on (C15_false): the butterfly uses the wrong sign of i, so bin k is the DFT of the input with signs flipped where the base-4 digit product Spec.digitDot is odd. That closed form is proved for orders 1 to 16, both plans, both directions, and with it that round trips give 4^order times the input. Order 0 is out of bounds."
  },
  {
   "property": "C16",
   "status": "partial",
   "theorems": [
    "Neo.Props.C16_dit4_partial",
    "Neo.Props.C16_dit4_false",
    "Neo.Props.C16_dit4_roundtrip",
    "Neo.Props.C16_dif3",
    "Neo.Props.C16_dif4",
    "Neo.Props.C16_dif5",
    "Neo.Props.C16_dif8"
   ],
   "note": "Proved for the decimation-in-frequency plans of radix 3, 4, 5 and 8 for all sizes below 2^32 (beyond every max_order()), any content of the work buffer, exact arithmetic. False for radix-4 decimation in time at every order (C16_dit4_false); proved there: the closed form with the wrong signs and the round trip."
  },
  {
   "property": "C17",
   "status": "proved",
   "theorems": [
    "Neo.Props.C17_radix3",
    "Neo.Props.C17_radix5",
    "Neo.Props.C17_radix3_order_19_overflow",
    "Neo.Props.C17_radix5_order_13_overflow"
   ],
   "note": "Exact arithmetic; orders 0 to 18 (radix 3, max_order 17) and 0 to 12 (radix 5, max_order 11); beyond them an int overflows (C17_radix3_order_19_overflow, C17_radix5_order_13_overflow)."
  },
  {
   "property": "C18",
   "status": "proved",
   "theorems": [
    "Neo.Props.C18_dct2",
    "Neo.Props.C18_wrong_length",
    "Neo.Props.C18_order_zero_out_of_bounds"
   ],
   "note": "Exact arithmetic, fallback plan, orders 1 to 27; a wrong length asserts; order 0 is out of bounds."
  },
  {
   "property": "C19",
   "status": "proved",
   "theorems": [
    "Neo.Props.C19_direct_convolve",
    "Neo.Props.C19_output_buffer",
    "Neo.Props.C19_commutative"
   ],
   "note": "Exact arithmetic over any commutative ring; non-empty inputs (two empty inputs wrap the output size and throw, modelled)."
  },
  {
   "property": "C20",
   "status": "partial",
   "theorems": [
    "Neo.Props.C20_fft_convolve_partial",
    "Neo.Props.C20_empty",
    "Neo.Props.C20_single_sample_asserts",
    "Neo.Props.C20_engine"
   ],
   "note": "Equal to direct_convolve for both sizes >= 2 and empty-in/empty-out; a one-sample input trips the constructor assertion (C20_single_sample_asserts), so the full statement is false of the code. Engine proved for every reused state."
  },
  {
   "property": "C21",
   "status": "partial",
   "theorems": [
    "Neo.Props.C21_overlap_add_partial",
    "Neo.Props.C21_long_filter_fails",
    "Neo.Props.C21_short_transform_oob",
    "Neo.Props.C21_wrong_length",
    "Neo.Props.C21_every_long_filter_fails",
    "Neo.Props.C21_exact_sizes"
   ],
   "note": "True exactly for F <= B+1 with a transform of at least two blocks (C21_exact_sizes, an equivalence); the full statement is false for all other sizes (C21_every_long_filter_fails: wrong output for every F >= B+2; C21_short_transform_oob: out-of-bounds)."
  },
  {
   "property": "C22",
   "status": "proved",
   "theorems": [
    "Neo.Props.C22_overlap_save",
    "Neo.Props.C22_wrong_length",
    "Neo.Props.C22_power_of_two",
    "Neo.Props.C22_one_one_oob",
    "Neo.Props.C22_non_dividing_block_fails",
    "Neo.Props.C22_one_tap",
    "Neo.Props.C22_every_non_dividing_block_fails",
    "Neo.Props.C22_exact_sizes"
   ],
   "note": "All B dividing the transform size (every power of two), F>=1, (B,F) != (1,1); exact arithmetic. C22_exact_sizes: beyond that it holds exactly for one-tap filters."
  },
  {
   "property": "C23",
   "status": "proved",
   "theorems": [
    "Neo.Props.C23_upola",
    "Neo.Props.C23_upols"
   ],
   "note": "Both overlap schemes, all power-of-two block sizes 2..2^26, exact arithmetic; filters produced by uniform_partition."
  },
  {
   "property": "C24",
   "status": "proved",
   "theorems": [
    "Neo.Props.C24_split_upola",
    "Neo.Props.C24_split_upols",
    "Neo.Props.C24_not_vacuous"
   ],
   "note": "All filter matrices and all lists of blocks, including faulting ones."
  },
  {
   "property": "C25",
   "status": "proved",
   "theorems": [
    "Neo.Props.C25_sparse_upola",
    "Neo.Props.C25_sparse_upols",
    "Neo.Props.C25_thresholded_exists",
    "Neo.Props.C25_accept_all"
   ],
   "note": "Any predicate (pure); also the accept-all case."
  },
  {
   "property": "C26",
   "status": "partial",
   "theorems": [
    "Neo.Props.C26_partial",
    "Neo.Props.C26_lost_sample",
    "Neo.Props.C26_false",
    "Neo.Props.C26_every_partial_call_fails",
    "Neo.Props.C26_exact_shapes"
   ],
   "note": "True exactly for histories in which every call but the last is a multiple of the block size (C26_exact_shapes, an equivalence); the full statement is false for every other history (C26_every_partial_call_fails: an earlier partial call loses pending input; C26_lost_sample, C26_false)."
  },
  {
   "property": "C27",
   "status": "partial",
   "theorems": [
    "Neo.Props.C27_reload_partial",
    "Neo.Props.C27_reload_session",
    "Neo.Props.C27_v2_reload_partial",
    "Neo.Props.C27_v2_stale_segment",
    "Neo.Props.C27_v2_false",
    "Neo.Props.C27_v2_exact",
    "Neo.Props.C27_v2_exact_blocks"
   ],
   "note": "Proved for all six uniform_partitioned_convolver aliases in every state; for overlap_add_convolver exactly: the outputs after filter() are right for every response of K segments if and only if the current segment is inside the new filter, at most one (new) block was pending and every call but the last ends at a block boundary counted from the pending position (C27_v2_exact; for whole blocks C27_v2_exact_blocks). Otherwise a sample is lost or the call runs out of bounds (C27_v2_stale_segment, C27_v2_false)."
  },
  {
   "property": "C28",
   "status": "partial",
   "theorems": [
    "Neo.Props.C28_power_of_two_partial",
    "Neo.Props.C28_other_block_sizes_fault",
    "Neo.Props.C28_false"
   ],
   "note": "Proved for powers of two >= 2; for every other block size the convolver faults (C28_other_block_sizes_fault), so the full statement is false."
  },
  {
   "property": "C29",
   "status": "proved",
   "theorems": [
    "Neo.Props.C29_fdl_index",
    "Neo.Props.C29_no_segments"
   ],
   "note": ""
  },
  {
   "property": "C30",
   "status": "proved",
   "theorems": [
    "Neo.Props.C30_causal",
    "Neo.Props.C30_linear",
    "Neo.Props.C30_time_invariant",
    "Neo.Props.C30_not_vacuous"
   ],
   "note": "All six aliases, every filter matrix; whenever the convolver runs without a fault (see C30_not_vacuous)."
  },
  {
   "property": "C31",
   "status": "proved",
   "theorems": [
    "Neo.Props.C31_stft",
    "Neo.Props.C31_transform_size_one_oob"
   ],
   "note": "Transform size >= max(F,2); size 1 reads out of bounds (proved separately)."
  },
  {
   "property": "C32",
   "status": "proved",
   "theorems": [
    "Neo.Props.C32_csr_from_dense"
   ],
   "note": "Pure sparsity predicate."
  },
  {
   "property": "C33",
   "status": "proved",
   "theorems": [
    "Neo.Props.C33_insert_total",
    "Neo.Props.C33_get",
    "Neo.Props.C33_structure"
   ],
   "note": "Every state reachable by insertions from an empty or dense-constructed matrix."
  },
  {
   "property": "C34",
   "status": "partial",
   "theorems": [
    "Neo.Props.C34_sparse_multiply_add_partial",
    "Neo.Props.C34_from_dense",
    "Neo.Props.C34_distinct_output",
    "Neo.Props.C34_distinct_output_fails",
    "Neo.Props.C34_duplicates_accumulate"
   ],
   "note": "Accumulating form and in-place output proved; with a distinct output span the code starts every stored element from the accumulator input, so the general form fails (C34_distinct_output_fails)."
  },
  {
   "property": "C35",
   "status": "proved",
   "theorems": [
    "Neo.Props.C35_simd_eq_scalar",
    "Neo.Props.C35_simd_elements",
    "Neo.Props.C35_interleaved",
    "Neo.Props.C35_scalar_huge"
   ],
   "note": "No algebraic laws used, so it covers floating point; SSE2/AVX/xsimd loops of any batch width, split and interleaved; from 2^31 elements on the scalar loop writes nothing (C35_scalar_huge)."
  },
  {
   "property": "C36",
   "status": "proved",
   "theorems": [
    "Neo.Props.C36_split_is_complex"
   ],
   "note": "Exact arithmetic; lengths below 2^31."
  },
  {
   "property": "C37",
   "status": "proved",
   "theorems": [
    "Neo.Props.C37_bit_ceil",
    "Neo.Props.C37_outside"
   ],
   "note": "Machine words of 8/16/32/64 bits; behaviour outside the range proved separately (C37_outside)."
  },
  {
   "property": "C38",
   "status": "proved",
   "theorems": [
    "Neo.Props.C38_next_order",
    "Neo.Props.C38_next_order_size",
    "Neo.Props.C38_size_t",
    "Neo.Props.C38_too_large"
   ],
   "note": "Machine integers of every standard type, both bit_ceil code paths; beyond the range std::bit_ceil is undefined and the portable path returns order 0 (C38_too_large)."
  },
  {
   "property": "C39",
   "status": "proved",
   "theorems": [
    "Neo.Props.C39_ipow",
    "Neo.Props.C39_size_t"
   ],
   "note": "Machine integers, run-time and compile-time base (all shift specialisations)."
  },
  {
   "property": "C40",
   "status": "partial",
   "theorems": [
    "Neo.Props.C40_idiv_partial",
    "Neo.Props.C40_unsigned",
    "Neo.Props.C40_size_t",
    "Neo.Props.C40_false",
    "Neo.Props.C40_signed_exact"
   ],
   "note": "Full statement proved for unsigned types (C40_unsigned) and for non-negative x whose x + y is representable; false for signed types otherwise (C40_false). C40_signed_exact is the exact behaviour for signed types: overflow exactly when x + y does not fit, otherwise the truncated quotient of x + y - 1, which is the ceiling exactly when x > -y or y divides x - 1."
  },
  {
   "property": "C41",
   "status": "proved",
   "theorems": [
    "Neo.Props.C41_add_sub_saturate",
    "Neo.Props.C41_monotone",
    "Neo.Props.C41_complex",
    "Neo.Props.C41_wide_storage"
   ],
   "note": "Machine integers; wider storage fails (C41_wide_storage)."
  },
  {
   "property": "C42",
   "status": "proved",
   "theorems": [
    "Neo.Props.C42_multiply"
   ],
   "note": "Machine integers, 0 <= F <= 30."
  },
  {
   "property": "C43",
   "status": "proved",
   "theorems": [
    "Neo.Props.C43_negate"
   ],
   "note": "Machine integers, all four storage widths."
  },
  {
   "property": "C44",
   "status": "proved",
   "theorems": [
    "Neo.Props.C44_round_trip",
    "Neo.Props.C44_truncates",
    "Neo.Props.C44_monotone",
    "Neo.Props.C44_huge_undefined"
   ],
   "note": "Floats as reals (multiplying by the power-of-two scale is exact); double via an arbitrary (monotone) rounding to float."
  },
  {
   "property": "C45",
   "status": "partial",
   "theorems": [
    "Neo.Props.C45_add_sub",
    "Neo.Props.C45_multiply_partial",
    "Neo.Props.C45_sse41_q15_partial",
    "Neo.Props.C45_false",
    "Neo.Props.C45_sse41_exact",
    "Neo.Props.C45_scalar_huge"
   ],
   "note": "add and subtract proved on every instruction set; multiply proved except on SSE4.1 with negative products or q15, where the full statement is false (C45_false). q15 on SSE4.1 is within one unit unless both operands are -1 (C45_sse41_q15_partial). C45_sse41_exact describes SSE4.1 completely: at which indices and for which operands the result is the scalar one (an equivalence) and what it is otherwise."
  },
  {
   "property": "C46",
   "status": "partial",
   "theorems": [
    "Neo.Props.C46_false",
    "Neo.Props.C46_equal_imag_partial",
    "Neo.Props.C46_exact",
    "Neo.Props.C46_real_operands"
   ],
   "note": "False of the code (C46_false: wrong shift, imaginary part of the left operand used for the right one). Proved: what the code computes for all operands (C46_exact), how far that is from the complex product when both imaginary parts agree (C46_equal_imag_partial) and when both are zero (C46_real_operands)."
  },
  {
   "property": "C47",
   "status": "partial",
   "theorems": [
    "Neo.Props.C47_fresh",
    "Neo.Props.C47_roundtrip_partial",
    "Neo.Props.C47_no_saturation",
    "Neo.Props.C47_int32_false",
    "Neo.Props.C47_outside_exact",
    "Neo.Props.C47_int32_exact"
   ],
   "note": "Proved for 8- and 16-bit storage and components in [-1,1] (scaling in exact arithmetic; with rounding in C107). 'Saturates outside' is false: the conversion wraps (C47_no_saturation). 32-bit storage is false even at 1 because the float maximum rounds to 2^31 (C47_int32_false). C47_outside_exact and C47_int32_exact say exactly what is stored and when the bound and the saturation nevertheless hold."
  },
  {
   "property": "C48",
   "status": "partial",
   "theorems": [
    "Neo.Props.C48_normalize_impulse_partial",
    "Neo.Props.C48_vec",
    "Neo.Props.C48_silent_channel_false"
   ],
   "note": "One common positive factor, energy at most 1, silent matrices unchanged, no division by zero: proved. 'The loudest has energy exactly 1' is proved when no channel is silent or some channel has energy >= 1, and is false otherwise (C48_silent_channel_false)."
  },
  {
   "property": "C49",
   "status": "proved",
   "theorems": [
    "Neo.Props.C49_peak_vec",
    "Neo.Props.C49_energy_vec",
    "Neo.Props.C49_peak_mat",
    "Neo.Props.C49_energy_mat"
   ],
   "note": "Real arithmetic; vectors and arbitrary valid rank-2 views."
  },
  {
   "property": "C50",
   "status": "partial",
   "theorems": [
    "Neo.Props.C50_vec",
    "Neo.Props.C50_mat",
    "Neo.Props.C50_too_long",
    "Neo.Props.C50_variance_laws",
    "Neo.Props.C50_mse_real",
    "Neo.Props.C50_mse_real_mat",
    "Neo.Props.C50_mse_corner",
    "Neo.Props.C50_mse_complex_false"
   ],
   "note": "Everything proved for real inputs with extents below 2^31 (int loop counter, C50_too_long). mean_squared_error of complex inputs compares magnitudes, so 'zero exactly for equal inputs' is false there (C50_mse_complex_false); empty inputs divide by zero."
  },
  {
   "property": "C51",
   "status": "proved",
   "theorems": [
    "Neo.Props.C51_mel",
    "Neo.Props.C51_mel_frequencies",
    "Neo.Props.C51_decibel"
   ],
   "note": "Real arithmetic; the estimate precision is C68."
  },
  {
   "property": "C52",
   "status": "proved",
   "theorems": [
    "Neo.Props.C52_window",
    "Neo.Props.C52_small"
   ],
   "note": "Real arithmetic; size 1 divides by zero (C52_small)."
  },
  {
   "property": "C53",
   "status": "proved",
   "theorems": [
    "Neo.Props.C53_scalar",
    "Neo.Props.C53_vector",
    "Neo.Props.C53_half_spectrum_false"
   ],
   "note": "Real arithmetic, lengths below 2^31. A vector holding only the n/2+1 bins of a real transform is filled with other values (C53_half_spectrum_false)."
  },
  {
   "property": "C54",
   "status": "proved",
   "theorems": [
    "Neo.Props.C54_allmatch_vec",
    "Neo.Props.C54_allmatch_mat",
    "Neo.Props.C54_allmatch_unary",
    "Neo.Props.C54_allmatch_unary_mat",
    "Neo.Props.C54_allclose_vec",
    "Neo.Props.C54_allclose_mat",
    "Neo.Props.C54_allclose_default"
   ],
   "note": "Extents below 2^31 (int loop counter)."
  },
  {
   "property": "C55",
   "status": "proved",
   "theorems": [
    "Neo.Props.C55_operators",
    "Neo.Props.C55_division",
    "Neo.Props.C55_compound",
    "Neo.Props.C55_aliased"
   ],
   "note": "Real arithmetic."
  },
  {
   "property": "C56",
   "status": "proved",
   "theorems": [
    "Neo.Props.C56_parseval",
    "Neo.Props.C56_linear",
    "Neo.Props.C56_circular_convolution"
   ],
   "note": "Default plan, exact arithmetic."
  },
  {
   "property": "C57",
   "status": "proved",
   "theorems": [
    "Neo.Props.C57_cli",
    "Neo.Props.C57_plugin"
   ],
   "note": "Signal and impulse in memory (no file I/O, no final normalize_peak); signal length + block size at most 2^31 (int loop counter); exact arithmetic; the four dense convolvers."
  },
  {
   "property": "C58",
   "status": "partial",
   "theorems": [
    "Neo.Props.C58_overlap_add",
    "Neo.Props.C58_slicing",
    "Neo.Props.C58_partial",
    "Neo.Props.C58_divider_zero",
    "Neo.Props.C58_false",
    "Neo.Props.C58_uninitialised",
    "Neo.Props.C58_hop_zero"
   ],
   "note": "False of the code (C58_false): the window factor 1/((F/H)/2) makes the gain 2, not 1, for every frame size and divider. Proved: for every (stateful) frame processor and every slicing the output is the overlap-add of the processed frames F-1 samples late (C58_overlap_add, C58_slicing); with an identity processor a delay of F-1 samples with gain 2, smaller during the first F-H samples (C58_partial). Without reset() after prepare() the output starts with uninitialised memory (C58_uninitialised). int ranges assumed, JUCE containers modelled as buffers."
  },
  {
   "property": "C59",
   "status": "proved",
   "theorems": [
    "Neo.Props.C59_values",
    "Neo.Props.C59_roundtrip",
    "Neo.Props.C59_rejects",
    "Neo.Props.C59_length_one",
    "Neo.Props.C59_length_argument"
   ],
   "note": "Orders 1 to 27, exact arithmetic, fallback plan; length 1 is out of bounds (C59_length_one); another length argument asserts (C59_length_argument)."
  },
  {
   "property": "C60",
   "status": "proved",
   "theorems": [
    "Neo.Props.C60_vectors",
    "Neo.Props.C60_mismatch",
    "Neo.Props.C60_matrix_unary",
    "Neo.Props.C60_matrix_fill_scale",
    "Neo.Props.C60_matrix_binary",
    "Neo.Props.C60_matrix_copy",
    "Neo.Props.C60_matrix_mismatch",
    "Neo.Props.C60_split_copy"
   ],
   "note": "Rank-1 and rank-2 (arbitrary strided views) and split-complex copies; portable code path."
  },
  {
   "property": "C61",
   "status": "proved",
   "theorems": [
    "Neo.Props.C61_dense_stream",
    "Neo.Props.C61_no_impulse"
   ],
   "note": "Exact arithmetic. C61_no_impulse covers the branch without an impulse response (identity filter). File reading and resampling are not modelled; the state is the one after prepare() and reset() (the plugin itself omits the reset, see C87)."
  },
  {
   "property": "C62",
   "status": "partial",
   "theorems": [
    "Neo.Props.C62_inner_is_dft",
    "Neo.Props.C62_forward_value_partial",
    "Neo.Props.C62_roundtrip_partial",
    "Neo.Props.C62_forward_correct_iff",
    "Neo.Props.C62_forward_not_dft",
    "Neo.Props.C62_small_orders"
   ],
   "note": "Inner complex plan (orders 1-29) and round trip (orders 2-30, both directions) proved. The forward spectrum claim is false of the code: the rotation angle has the wrong sign, so the output is the packed spectrum of the signal whose odd-numbered samples are advanced by two; C62_forward_correct_iff shows it is right exactly when all odd-numbered samples are equal, C62_forward_not_dft is a concrete witness. Orders 0 and 1 fault (C62_small_orders)."
  },
  {
   "property": "C63",
   "status": "proved",
   "theorems": [
    "Neo.Props.C63_pruned_convolution",
    "Neo.Props.C63_lossless_pruning",
    "Neo.Props.C63_all_bins_protected",
    "Neo.Props.C63_dc_always_dropped",
    "Neo.Props.C63_a_weighting",
    "Neo.Props.C63_low_bins_out_of_range"
   ],
   "note": "Exact arithmetic; logarithms are real logarithms with log10(0) = -inf. Block sizes 2 to 2^26, sample rate nonzero. Observed: with lowBinsToKeep = 0 the DC bin is dropped for every threshold (C63_dc_always_dropped); lowBinsToKeep outside 0..bins is out of bounds (C63_low_bins_out_of_range)."
  },
  {
   "property": "C64",
   "status": "proved",
   "theorems": [
    "Neo.Props.C64_every_kernel",
    "Neo.Props.C64_roundtrip",
    "Neo.Props.C64_fft_error"
   ],
   "note": "Standard model of floating-point arithmetic: every operation returns the exact result times (1+d) with |d| <= u. Overflow, underflow and fused multiply-add are not modelled. A 24-bit round-to-nearest format (binary32, unbounded exponent) is constructed as an instance."
  },
  {
   "property": "C65",
   "status": "proved",
   "theorems": [
    "Neo.Props.C65_histogram",
    "Neo.Props.C65_total",
    "Neo.Props.C65_bars",
    "Neo.Props.C65_bars_all_inaudible"
   ],
   "note": "Exact arithmetic; juce::roundToInt is library code, modelled as rounding to nearest with ties to even. If the weighting attenuates every bin below -143 dB the bar heights are 0/0 (C65_bars_all_inaudible)."
  },
  {
   "property": "C66",
   "status": "partial",
   "theorems": [
    "Neo.Props.C66_image_rows",
    "Neo.Props.C66_image_partial",
    "Neo.Props.C66_weighting_upside_down"
   ],
   "note": "False for weightings that are not symmetric over the bins: the weight is looked up at the image row numBins-1-bin instead of the bin (C66_weighting_upside_down). C66_image_rows states exactly what is drawn; C66_image_partial is the claim for symmetric weightings, including no weighting."
  },
  {
   "property": "C67",
   "status": "proved",
   "theorems": [
    "Neo.Props.C67_percentage"
   ],
   "note": "Exact arithmetic. The 1024-entry weight table bounds the number of bins; the caller uses 513."
  },
  {
   "property": "C68",
   "status": "proved",
   "theorems": [
    "Neo.Props.C68_fast_log2",
    "Neo.Props.C68_fast_log10",
    "Neo.Props.C68_decibel",
    "Neo.Props.C68_monotone",
    "Neo.Props.C68_subnormal_wrong"
   ],
   "note": "Error of the formula plus propagated rounding, for any rounding with unit roundoff 2^-24; the constants and literals are rounded too. Infinities, NaN and subnormal inputs are outside the bound (C68_subnormal_wrong)."
  },
  {
   "property": "C69",
   "status": "partial",
   "theorems": [
    "Neo.Props.C69_process_blocks_partial",
    "Neo.Props.C69_whole_blocks",
    "Neo.Props.C69_short_block_dry",
    "Neo.Props.C69_reset_bypasses",
    "Neo.Props.C69_no_impulse"
   ],
   "note": "False for a final incomplete block, which is passed through dry (C69_short_block_dry); everything else is proved, including reuse of the object. The resampler is an arbitrary function, reading files is outside the model."
  },
  {
   "property": "C70",
   "status": "partial",
   "theorems": [
    "Neo.Props.C70_forward_partial",
    "Neo.Props.C70_backward_partial",
    "Neo.Props.C70_backward_false",
    "Neo.Props.C70_overflow",
    "Neo.Props.C70_other_sizes_diverge",
    "Neo.Props.C70_sizes",
    "Neo.Props.C70_stale_output",
    "Neo.Props.C70_forward_exact",
    "Neo.Props.C70_backward_exact"
   ],
   "note": "Forward holds for all powers of two up to 2^29 (C70_forward_partial). Backward is false for every n >= 4 (C70_backward_false): the butterflies keep the sign of i of the forward transform; only n = 1, 2 are right. C70_sizes says what happens for every size below 2^31: sizes that begin with the binary digits 11 (and zero) recurse for ever, those that begin with 10 end, or overflow an int when 3 * n does not fit. C70_stale_output: where the call ends and n is not a power of two, the result depends on the old contents of the output buffer. Hence the exact domains: forward right iff n = 2^P with P <= 29 (C70_forward_exact), backward right iff n = 1 or 2 (C70_backward_exact)."
  },
  {
   "property": "C71",
   "status": "proved",
   "theorems": [
    "Neo.Props.C71_real",
    "Neo.Props.C71_complex",
    "Neo.Props.C71_explicit",
    "Neo.Props.C71_relative"
   ],
   "note": "Standard model of floating-point arithmetic as in C64 (no overflow, underflow or fused multiply-add). The loops are the generic definition already used for C19, instantiated with rounded numbers."
  },
  {
   "property": "C72",
   "status": "proved",
   "theorems": [
    "Neo.Props.C72_fft_convolve",
    "Neo.Props.C72_explicit",
    "Neo.Props.C72_real_transforms"
   ],
   "note": "Standard model of floating-point arithmetic as in C64. The rounded plan and convolver are separate definitions (Model/ConvRounding) with the same statements as the exact ones. Inputs of one sample assert, see C20."
  },
  {
   "property": "C73",
   "status": "proved",
   "theorems": [
    "Neo.Props.C73_upols",
    "Neo.Props.C73_upola",
    "Neo.Props.C73_gain",
    "Neo.Props.C73_no_drift"
   ],
   "note": "Standard model of floating-point arithmetic as in C64. The convolver, delay line and filter are the definitions of Model/Upc (generic in the number type); overlap stage, STFT and transforms are separate rounded definitions (Model/UpcRounding, Model/ConvRounding) with the same statements as the exact ones. Split-complex and sparse variants are not covered."
  },
  {
   "property": "C74",
   "status": "proved",
   "theorems": [
    "Neo.Props.C74_lane",
    "Neo.Props.C74_correctly_rounded",
    "Neo.Props.C74_batch",
    "Neo.Props.C74_closed",
    "Neo.Props.C74_broadcast"
   ],
   "note": "The intrinsics are trusted to do per lane what they document (exact widening, correctly rounded binary32 operation, correctly rounded narrowing) in the default rounding mode without flushing denormals. Signed zeros and NaN payloads are not distinguished."
  },
  {
   "property": "C75",
   "status": "partial",
   "theorems": [
    "Neo.Props.C75_apple",
    "Neo.Props.C75_mkl",
    "Neo.Props.C75_ipp",
    "Neo.Props.C75_ipp_dft",
    "Neo.Props.C75_split_partial",
    "Neo.Props.C75_split_strided_untouched",
    "Neo.Props.C75_split_strided_wrong",
    "Neo.Props.C75_ipp_rfft",
    "Neo.Props.C75_ipp_irfft",
    "Neo.Props.C75_ipp_roundtrip",
    "Neo.Props.C75_orders",
    "Neo.Props.C75_ipp_order_truncated",
    "Neo.Props.C75_interchangeable"
   ],
   "note": "False for strided split-complex vectors: the guard `always_false<...>;` is an expression statement, not a static_assert, so the call compiles and does nothing (C75_split_strided_wrong; Apple's out-of-place call also when input and output differ in layout); C75_split_partial covers contiguous planes. False for IPP orders of 2^32 and more, which are truncated to int (C75_ipp_order_truncated). The library contract is a hypothesis (Vendor.Contract); referenceVendor shows it can be met."
  },
  {
   "property": "C76",
   "status": "partial",
   "theorems": [
    "Neo.Props.C76_no_double_free",
    "Neo.Props.C76_all_released_partial",
    "Neo.Props.C76_assignment_leaks",
    "Neo.Props.C76_leak_witness",
    "Neo.Props.C76_ipp_dangling"
   ],
   "note": "No double release: proved. False for vDSP and MKL when a plan is move-assigned onto a plan that owns an object: the object is never released (C76_assignment_leaks, C76_leak_witness). False for IPP when a moved-from plan is called after the new owner is gone (C76_ipp_dangling). C76_all_released_partial excludes the first case."
  },
  {
   "property": "C77",
   "status": "partial",
   "theorems": [
    "Neo.Props.C77_forward_lanes_partial",
    "Neo.Props.C77_backward_only_permutes",
    "Neo.Props.C77_backward_not_idft",
    "Neo.Props.C77_wrong_length",
    "Neo.Props.C77_split_lanes",
    "Neo.Props.C77_split_out_of_place",
    "Neo.Props.C77_split_out_of_place_wrong_length"
   ],
   "note": "False for the backward direction of simd_fft_plan: the kernel call is commented out, the plan only permutes the elements (C77_backward_only_permutes, C77_backward_not_idft); C77_forward_lanes_partial covers the forward direction. The split plan is proved for both directions. Batches are functions from lanes to exact numbers; the arithmetic of a batch is lane-wise."
  },
  {
   "property": "C78",
   "status": "proved",
   "theorems": [
    "Neo.Props.C78_static_fft",
    "Neo.Props.C78_split_equals_interleaved",
    "Neo.Props.C78_static_split",
    "Neo.Props.C78_equals_library",
    "Neo.Props.C78_benchmark_identity",
    "Neo.Props.C78_wrong_size_out_of_bounds"
   ],
   "note": "Exact arithmetic. Template recursion is modelled as recursion over the remaining stages. Order 0 does not compile."
  },
  {
   "property": "C79",
   "status": "partial",
   "theorems": [
    "Neo.Props.C79_stockham",
    "Neo.Props.C79_dit4_partial",
    "Neo.Props.C79_dit4_false",
    "Neo.Props.C79_dit4_roundtrip",
    "Neo.Props.C79_table_partial",
    "Neo.Props.C79_table_false",
    "Neo.Props.C79_stockham_plan_partial",
    "Neo.Props.C79_stockham_plan_false",
    "Neo.Props.C79_stockham_plan_roundtrip",
    "Neo.Props.C79_stockham_plan_size_zero"
   ],
   "note": "Proved for c2c_stockham. False for c2c_dit4: t1 -/+ t3*I has the wrong sign for I = {0, sign} (C79_dit4_false at every order; C79_dit4_partial says what it computes); the version with a table in addition reads the table without the stage's stride, so that it differs from the other version from order 3 on (C79_table_false, C79_table_partial). The plan of stockham.cpp has the directions exchanged (C79_stockham_plan_false, C79_stockham_plan_partial). Round trips give N times the input in all cases but the table version. The literal 3.14159265359 is idealised to pi."
  },
  {
   "property": "C80",
   "status": "proved",
   "theorems": [
    "Neo.Props.C80_fft",
    "Neo.Props.C80_rfft",
    "Neo.Props.C80_roundtrip",
    "Neo.Props.C80_runs",
    "Neo.Props.C80_runs_overflow_float",
    "Neo.Props.C80_other_lengths"
   ],
   "note": "Exact arithmetic; the float literals for pi and 2 pi are idealised. A transform whose nn does not fit an int is a fault of the model."
  },
  {
   "property": "C81",
   "status": "partial",
   "theorems": [
    "Neo.Props.C81_view",
    "Neo.Props.C81_fft",
    "Neo.Props.C81_convolve_partial",
    "Neo.Props.C81_other_modes",
    "Neo.Props.C81_first_rank",
    "Neo.Props.C81_second_rank_unchecked",
    "Neo.Props.C81_fft_single_sample",
    "Neo.Props.C81_empty",
    "Neo.Props.C81_negative_stride",
    "Neo.Props.C81_odd_stride",
    "Neo.Props.C81_read_only",
    "Neo.Props.C81_mixed_types",
    "Neo.Props.C81_rfftfreq"
   ],
   "note": "Holds for writeable one-dimensional arrays of equal floating-point type with non-negative strides that are multiples of the item size, non-empty, and for 'fft' of at least two elements (C81_convolve_partial). False otherwise: the rank of in2 is never checked (C81_second_rank_unchecked), 'fft' with one sample or one empty operand aborts (C81_fft_single_sample, C81_empty), reversed views are read out of bounds (C81_negative_stride), strides that are not multiples of the item size read other memory (C81_odd_stride), read-only arrays raise (C81_read_only), operands of mixed or integer type are rounded to single precision first (C81_mixed_types). The behaviour of pybind11 and NumPy assumed is listed in Model/PythonConv."
  },
  {
   "property": "C82",
   "status": "partial",
   "theorems": [
    "Neo.Props.C82_complex_parts",
    "Neo.Props.C82_imag_of_real_false",
    "Neo.Props.C82_abs",
    "Neo.Props.C82_parity"
   ],
   "note": "False for imag of a real number, which returns the number itself (C82_imag_of_real_false; the repository's test asserts this), and for abs of the smallest value of int and wider signed types, which is undefined (C82_abs gives both directions). The rest is proved: C82_complex_parts, C82_parity."
  },
  {
   "property": "C83",
   "status": "partial",
   "theorems": [
    "Neo.Props.C83_scale_partial",
    "Neo.Props.C83_scale_truncated",
    "Neo.Props.C83_scale_truncated_witness",
    "Neo.Props.C83_wrong_lengths",
    "Neo.Props.C83_multiply_add"
   ],
   "note": "multiply_add is proved for lengths below 2^31 (C83_multiply_add); planes of different lengths stop at an assertion (C83_wrong_lengths). scale is proved for lengths that fit the library's integer type (C83_scale_partial) and false beyond: with MKL's default 32-bit interface a vector of 2^31 to 2^32 elements is silently left unscaled (C83_scale_truncated, C83_scale_truncated_witness)."
  },
  {
   "property": "C84",
   "status": "proved",
   "theorems": [
    "Neo.Props.C84_mirror",
    "Neo.Props.C84_padded",
    "Neo.Props.C84_makhoul",
    "Neo.Props.C84_empty",
    "Neo.Props.C84_library"
   ],
   "note": "Exact arithmetic. scipy.fft.fft is a parameter assumed to return the DFT and to raise on an empty array (ScipyFft)."
  },
  {
   "property": "C85",
   "status": "proved",
   "theorems": [
    "Neo.Props.C85_digitreversal",
    "Neo.Props.C85_short",
    "Neo.Props.C85_radix4_dif",
    "Neo.Props.C85_radix4_dit",
    "Neo.Props.C85_radix2_dif",
    "Neo.Props.C85_radix2_dit",
    "Neo.Props.C85_no_permutation",
    "Neo.Props.C85_drivers_short"
   ],
   "note": "Exact arithmetic; np.linspace(0, kmax, kmax+1) is idealised to 0, 1, ..., kmax, and the float loop variables (powers of the radix, exact below 2^53) to natural numbers."
  },
  {
   "property": "C86",
   "status": "partial",
   "theorems": [
    "Neo.Props.C86_success_partial",
    "Neo.Props.C86_last_variant_wins",
    "Neo.Props.C86_refused",
    "Neo.Props.C86_one_unreadable",
    "Neo.Props.C86_both_unreadable_false",
    "Neo.Props.C86_unwritable_false"
   ],
   "note": "Proved for successful runs (C86_success_partial), wrong arguments and mismatches (C86_refused) and one unreadable input (C86_one_unreadable). False if both inputs are unreadable: status 0 and an output without channels (C86_both_unreadable_false); false if the output cannot be opened: status 0 (C86_unwritable_false). With a compiler that has _Float16 a third, half-precision rendering overwrites the others (C86_last_variant_wins). dr_wav is not in the repository; its behaviour is an assumption of Model/Cli. Exact arithmetic."
  },
  {
   "property": "C87",
   "status": "partial",
   "theorems": [
    "Neo.Props.C87_layouts",
    "Neo.Props.C87_stream_partial",
    "Neo.Props.C87_no_file_partial",
    "Neo.Props.C87_reset_partial",
    "Neo.Props.C87_unprepared",
    "Neo.Props.C87_garbage_false",
    "Neo.Props.C87_click_false"
   ],
   "note": "Proved: the output for every stream, slicing and parameter sequence, with and without the impulse response file (C87_stream_partial, C87_no_file_partial), the silence in place of memory content after releaseResources (C87_reset_partial), the accepted layouts (C87_layouts), the unprepared plugin (C87_unprepared). The property is false: the wet signal is F-1 samples later than the dry one and than the reported latency 0, at twice the amplitude, and outlasts the reported tail 0 (C87_click_false); it starts with F-1 samples of uninitialised memory (C87_garbage_false). juce::dsp::DryWetMixer is outside the repository; its contract is an assumption of Model/PluginChain. Exact arithmetic."
  },
  {
   "property": "C88",
   "status": "proved",
   "theorems": [
    "Neo.Props.C88_split_forward",
    "Neo.Props.C88_split_backward",
    "Neo.Props.C88_split_backward_interleaved",
    "Neo.Props.C88_split_gain",
    "Neo.Props.C88_split_error",
    "Neo.Props.C88_split_upola",
    "Neo.Props.C88_split_upols",
    "Neo.Props.C88_sparse_upola",
    "Neo.Props.C88_sparse_upols",
    "Neo.Props.C88_not_vacuous"
   ],
   "note": "Standard model of floating-point arithmetic (no overflow, underflow, NaN or fused multiply-add). Idempotence and symmetry of the rounding are hypotheses of C88_sparse_* and C88_split_backward_interleaved; both hold for IEEE rounding to nearest, and an example format with both is given (binary32s)."
  },
  {
   "property": "C89",
   "status": "partial",
   "theorems": [
    "Neo.Props.C89_scalar",
    "Neo.Props.C89_scalar_error",
    "Neo.Props.C89_scalar_saturated",
    "Neo.Props.C89_product_saturates",
    "Neo.Props.C89_neon",
    "Neo.Props.C89_batch_partial",
    "Neo.Props.C89_q7x16",
    "Neo.Props.C89_false",
    "Neo.Props.C89_cmulp"
   ],
   "note": "Proved for q7 and q15 (C89_scalar, C89_scalar_error, C89_scalar_saturated, C89_cmulp) and for q15x8 on NEON, which equals q15 (C89_neon). For q15x8 on SSE4.1, q15x16 and q15x32 proved, with error at most one unit, unless a product has both factors -1 (C89_batch_partial); there the product is -1 instead of nearly 1, and q7x16 gives nearly 1 for every negative product (C89_q7x16, C89_false). The intermediate saturation of the product cannot be dropped from the statement (C89_product_saturates)."
  },
  {
   "property": "C90",
   "status": "proved",
   "theorems": [
    "Neo.Props.C90_dft_plan",
    "Neo.Props.C90_dft_plan_wrong_length",
    "Neo.Props.C90_dft_plan_explicit",
    "Neo.Props.C90_naive",
    "Neo.Props.C90_naive_wrong_length",
    "Neo.Props.C90_naive_explicit",
    "Neo.Props.C90_dct2",
    "Neo.Props.C90_dct2_wrong_length",
    "Neo.Props.C90_dct2_explicit"
   ],
   "note": "Standard model of floating-point arithmetic (no overflow, underflow, NaN or fused multiply-add); std::exp of a number with real part zero is assumed to be std::polar(1, imaginary part)."
  },
  {
   "property": "C91",
   "status": "proved",
   "theorems": [
    "Neo.Props.C91_mean_vec",
    "Neo.Props.C91_mean_mat",
    "Neo.Props.C91_variance_vec",
    "Neo.Props.C91_variance_mat",
    "Neo.Props.C91_mse_vec",
    "Neo.Props.C91_mse_mat",
    "Neo.Props.C91_statistics_explicit",
    "Neo.Props.C91_mse_explicit",
    "Neo.Props.C91_peak_vec",
    "Neo.Props.C91_peak_mat",
    "Neo.Props.C91_energy_vec",
    "Neo.Props.C91_energy_mat",
    "Neo.Props.C91_normalize_impulse",
    "Neo.Props.C91_energy_explicit"
   ],
   "note": "Standard model of floating-point arithmetic (no overflow, underflow, NaN or fused multiply-add); the square root is the correctly rounded root. For complex inputs of mean_squared_error the bound is relative to the computed magnitudes."
  },
  {
   "property": "C92",
   "status": "partial",
   "theorems": [
    "Neo.Props.C92_peak_vec_partial",
    "Neo.Props.C92_peak_mat_partial",
    "Neo.Props.C92_peak_false",
    "Neo.Props.C92_energy_overflow",
    "Neo.Props.C92_energy_underflow",
    "Neo.Props.C92_mean_overflow",
    "Neo.Props.C92_standard_model"
   ],
   "note": "Proved for all values of the format: what normalize_peak does in each range of the peak (C92_peak_vec_partial, C92_peak_mat_partial). The property holds for peaks above 2^-emax up to 2^(emax-2) and fails outside: a smaller peak gives infinities and NaN, a larger one a peak that may exceed 1 by up to 2^(2-P) (C92_peak_false). normalize_energy silences an input with one sample whose square overflows (C92_energy_overflow) and leaves an input unchanged whose squares underflow (C92_energy_underflow); mean overflows (C92_mean_overflow). For the ranges in between see C91 and C108, whose rounding assumption C92_standard_model justifies. Signed zeros are not distinguished; products and sums are not fused."
  },
  {
   "property": "C93",
   "status": "proved",
   "theorems": [
    "Neo.Props.C93_memory_upola",
    "Neo.Props.C93_memory_upols",
    "Neo.Props.C93_nan_upola",
    "Neo.Props.C93_nan_upols",
    "Neo.Props.C93_slot_order",
    "Neo.Props.C93_nonfinite_upola",
    "Neo.Props.C93_nonfinite_upols"
   ],
   "note": "Complex products are those of neo::scalar_complex (four products, a difference and a sum); for std::complex, which may recover an infinity from NaN, see C101_nonfinite_upola and C101_nonfinite_upols. The twiddle tables and the filter are arbitrary. Signed zeros and NaN payloads are not distinguished, and products and sums are not fused. C93_nonfinite_* extend the statement on NaN to infinities and to infinite or NaN filter coefficients. Dense convolvers only."
  },
  {
   "property": "C94",
   "status": "partial",
   "theorems": [
    "Neo.Props.C94_max_rmse",
    "Neo.Props.C94_quality",
    "Neo.Props.C94_unit_impulse",
    "Neo.Props.C94_missing_channels",
    "Neo.Props.C94_analysis_partial",
    "Neo.Props.C94_start_ignored",
    "Neo.Props.C94_short_impulse"
   ],
   "note": "The error measure (C94_max_rmse) and the quality test (C94_quality, C94_unit_impulse) are proved in exact arithmetic; the range is not rounded to float. The analysis is proved for impulses of more than 512 samples (C94_analysis_partial), and the claim about the whole impulse is false: the partitions leave out the first 512 samples, so an impulse that ends there is analysed as silence (C94_start_ignored), and impulses of at most 512 samples run out of bounds (C94_short_impulse). The quality test does not return if the impulse has fewer channels than the signal or none is loaded (C94_missing_channels)."
  },
  {
   "property": "C95",
   "status": "partial",
   "theorems": [
    "Neo.Props.C95_copy",
    "Neo.Props.C95_copy_exact",
    "Neo.Props.C95_copy_contiguous",
    "Neo.Props.C95_copy_matrix",
    "Neo.Props.C95_binary",
    "Neo.Props.C95_slide",
    "Neo.Props.C95_multiply_add",
    "Neo.Props.C95_multiply_add_batch",
    "Neo.Props.C95_batch_differs",
    "Neo.Props.C95_split",
    "Neo.Props.C95_split_batch",
    "Neo.Props.C95_split_swapped_false",
    "Neo.Props.C95_accumulate"
   ],
   "note": "Proved for copy (with an exact criterion, C95_copy_exact), add, multiply, multiply_add and, in batches, for split planes. False for split planes in the scalar loop and in the rest behind the last batch if the output planes are those of z with exchanged roles: the real part is stored before the imaginary part of z is read (C95_split_swapped_false, C95_split adds the missing condition). Batches and scalar loop differ if an element is overwritten too early (C95_batch_differs)."
  },
  {
   "property": "C96",
   "status": "proved",
   "theorems": [
    "Neo.Props.C96_tables",
    "Neo.Props.C96_rfft",
    "Neo.Props.C96_upols",
    "Neo.Props.C96_upola",
    "Neo.Props.C96_growth",
    "Neo.Props.C96_unit",
    "Neo.Props.C96_intermediate_overflow"
   ],
   "note": "C96_upols and C96_upola: any accuracy of the tables and any bounds; C96_unit and C96_growth: explicit constants for correctly rounded tables (C96_tables) and samples of magnitude at most one; C96_rfft: one transform; C96_intermediate_overflow: the condition on intermediate results cannot be dropped. Products and sums are not fused, signed zeros are not distinguished, complex products are those of neo::scalar_complex; for std::complex see C101_accuracy. Dense convolvers with the reference FFT."
  },
  {
   "property": "C97",
   "status": "partial",
   "theorems": [
    "Neo.Props.C97_order",
    "Neo.Props.C97_all_started",
    "Neo.Props.C97_quiet_partial",
    "Neo.Props.C97_race_iff",
    "Neo.Props.C97_load_signal_iff",
    "Neo.Props.C97_worker_alive",
    "Neo.Props.C97_dangling_iff",
    "Neo.Props.C97_race_witness",
    "Neo.Props.C97_mixed_witness",
    "Neo.Props.C97_dangling_witness"
   ],
   "note": "Proved for every execution: order, nothing lost or stuck (C97_order, C97_all_started), jobs never touch the destroyed tab (C97_worker_alive). False of the code, with witnesses: races (C97_race_witness), jobs that mix two signals even without a race (C97_mixed_witness), callbacks into the destroyed tab (C97_dangling_witness). Exact conditions: C97_race_iff, C97_load_signal_iff, C97_dangling_iff; under the discipline of loading nothing while jobs wait or run the claim on races and values holds (C97_quiet_partial). Contracts of JUCE's ThreadPool and MessageManager are assumed."
  },
  {
   "property": "C98",
   "status": "proved",
   "theorems": [
    "Neo.Props.C98_filter_distance",
    "Neo.Props.C98_sparse_error",
    "Neo.Props.C98_gain",
    "Neo.Props.C98_rendered_error",
    "Neo.Props.C98_dropped_level"
   ],
   "note": "In exact arithmetic (the rounding errors of the convolvers are C90 and C96). C98_sparse_error, C98_filter_distance, C98_gain; for the renderer C98_rendered_error with the bound in decibel C98_dropped_level. The factor 2 is an upper bound and is not claimed to be the best possible."
  },
  {
   "property": "C99",
   "status": "proved",
   "theorems": [
    "Neo.Props.C99_dct2",
    "Neo.Props.C99_dct3",
    "Neo.Props.C99_roundtrip",
    "Neo.Props.C99_energy",
    "Neo.Props.C99_fallback",
    "Neo.Props.C99_orders",
    "Neo.Props.C99_wrong_length"
   ],
   "note": "Exact arithmetic; the library is an arbitrary DctVendor and its documentation the hypothesis DctVendor.Contract. Orthogonality of the cosine matrix is proved, not assumed. The comparison C99_fallback composes with C18."
  },
  {
   "property": "C100",
   "status": "proved",
   "theorems": [
    "Neo.Props.C100_fft",
    "Neo.Props.C100_fft_edge",
    "Neo.Props.C100_rfft",
    "Neo.Props.C100_irfft"
   ],
   "note": "Complex products are those of neo::scalar_complex. The parts about infinities carry over to std::complex by C101; a NaN may become an infinity there. Signed zeros and NaN payloads are not distinguished; products and sums are not fused."
  },
  {
   "property": "C101",
   "status": "proved",
   "theorems": [
    "Neo.Props.C101_fft",
    "Neo.Props.C101_rfft",
    "Neo.Props.C101_irfft",
    "Neo.Props.C101_upola",
    "Neo.Props.C101_upols",
    "Neo.Props.C101_partitioned",
    "Neo.Props.C101_accuracy",
    "Neo.Props.C101_nonfinite_upola",
    "Neo.Props.C101_nonfinite_upols",
    "Neo.Props.C101_differs"
   ],
   "note": "The product of std::complex is modelled as in C11 G.5.1 example 1 (libgcc and compiler-rt); the algorithm is not in the repository, and a compiler option such as -ffast-math, which the build files do not set, would replace it by the textbook product. The vectorised multiply_add for std::complex (xsimd) is outside. Signed zeros and NaN payloads are not distinguished, and products and sums are not fused. Reference transforms and dense convolvers."
  },
  {
   "property": "C102",
   "status": "proved",
   "theorems": [
    "Neo.Props.C102_memory_upola",
    "Neo.Props.C102_memory_upols",
    "Neo.Props.C102_keep_all",
    "Neo.Props.C102_nonfinite_upola",
    "Neo.Props.C102_nonfinite_upols",
    "Neo.Props.C102_thresholded",
    "Neo.Props.C102_exact",
    "Neo.Props.C102_differs",
    "Neo.Props.C102_accuracy"
   ],
   "note": "Signed zeros and NaN payloads are not distinguished. Products and sums are not fused, and the sparse kernel is the scalar loop of multiply_add.hpp. Block sizes are powers of two."
  },
  {
   "property": "C103",
   "status": "proved",
   "theorems": [
    "Neo.Props.C103_convolvers",
    "Neo.Props.C103_forward",
    "Neo.Props.C103_backward",
    "Neo.Props.C103_ieee",
    "Neo.Props.C103_tables",
    "Neo.Props.C103_std"
   ],
   "note": "C103_convolvers and C103_forward need only LawfulParts/SplitArith, the textbook formulas for the parts, met by exact, rounded and IEEE complex numbers. Signed zeros and NaN payloads are not distinguished; products and sums are not fused. The order 0 backward transform is C103_backward only."
  },
  {
   "property": "C104",
   "status": "proved",
   "theorems": [
    "Neo.Props.C104_fft_convolve",
    "Neo.Props.C104_fft_convolve_unit",
    "Neo.Props.C104_fft_nonfinite",
    "Neo.Props.C104_fft_std",
    "Neo.Props.C104_fft_no_memory",
    "Neo.Props.C104_fft_swap",
    "Neo.Props.C104_direct_reads",
    "Neo.Props.C104_direct_swap",
    "Neo.Props.C104_direct_order",
    "Neo.Props.C104_direct_nonfinite",
    "Neo.Props.C104_direct"
   ],
   "note": "C104_direct, C104_fft_convolve, C104_fft_convolve_unit, C104_direct_nonfinite, C104_direct_reads, C104_fft_nonfinite, C104_fft_std, C104_fft_no_memory, C104_fft_swap, C104_direct_swap, C104_direct_order. Signed zeros and NaN payloads are not distinguished; products and sums are not fused. The error bound of fft_convolve is relative to the product of the sums of magnitudes, not to the single sample; that is the nature of the method, not a gap."
  },
  {
   "property": "C105",
   "status": "proved",
   "theorems": [
    "Neo.Props.C105_fft",
    "Neo.Props.C105_round_trip",
    "Neo.Props.C105_scaled",
    "Neo.Props.C105_real_round_trip",
    "Neo.Props.C105_std",
    "Neo.Props.C105_growth",
    "Neo.Props.C105_overflow"
   ],
   "note": "C105_fft, C105_round_trip, C105_scaled, C105_real_round_trip, C105_std, C105_growth, C105_overflow; the real forward transform is C96_rfft. The division by 2^b after a round trip is exact arithmetic here (the code leaves it to the caller; by a power of two it is exact above the subnormal range). The bounds are per bin and relative to the sum of magnitudes; C64 and C72 bound the error in the Euclidean norm in the absence of overflow and underflow. Products and sums are not fused."
  },
  {
   "property": "C106",
   "status": "proved",
   "theorems": [
    "Neo.Props.C106_commute",
    "Neo.Props.C106_polarity_fft",
    "Neo.Props.C106_polarity_rfft",
    "Neo.Props.C106_polarity_irfft",
    "Neo.Props.C106_polarity_upola",
    "Neo.Props.C106_polarity_upols",
    "Neo.Props.C106_polarity_convolve",
    "Neo.Props.C106_commute_ieee",
    "Neo.Props.C106_silence_upola",
    "Neo.Props.C106_silence_upols",
    "Neo.Props.C106_real_bins"
   ],
   "note": "C106_polarity_fft, C106_polarity_rfft, C106_polarity_irfft, C106_polarity_upola, C106_polarity_upols, C106_polarity_convolve, C106_silence_upola, C106_silence_upols, C106_real_bins, C106_commute, C106_commute_ieee. The formats have one zero: signed zeros are not told apart, so 'exactly zero' means +0 or -0, and the sign of a zero result is not claimed. The NaN payload is not modelled. Products and sums are not fused. The tables are parameters: that their first entry is polar(1, 0) = 1 is a hypothesis of C106_real_bins, that they are finite one of the silence theorems."
  },
  {
   "property": "C107",
   "status": "proved",
   "theorems": [
    "Neo.Props.C107_insert",
    "Neo.Props.C107_invariant",
    "Neo.Props.C107_reinsert",
    "Neo.Props.C107_order",
    "Neo.Props.C107_undefined",
    "Neo.Props.C107_half_step_false",
    "Neo.Props.C107_full_scale",
    "Neo.Props.C107_multiply_real",
    "Neo.Props.C107_multiply_complex"
   ],
   "note": "C107_insert, C107_full_scale, C107_invariant, C107_reinsert, C107_order, C107_undefined, C107_half_step_false, C107_multiply_real, C107_multiply_complex. Outside [-1,1] the stored value wraps as in C47_outside_exact, 32-bit storage is C47_int32_false. long has 64 bits. Signed zeros are not told apart; products and sums are not fused. The conversion constructor of the mdspan with the accessor is modelled as reading every element through access(); the noise signals of the benchmark are arbitrary inputs."
  },
  {
   "property": "C108",
   "status": "proved",
   "theorems": [
    "Neo.Props.C108_mean",
    "Neo.Props.C108_mse",
    "Neo.Props.C108_mse_self",
    "Neo.Props.C108_variance",
    "Neo.Props.C108_energy",
    "Neo.Props.C108_impulse",
    "Neo.Props.C108_energy_float"
   ],
   "note": "C108_mean, C108_variance, C108_mse, C108_mse_self, C108_energy, C108_energy_float, C108_impulse. Scalars are real; complex mean squared errors with rounding are in C91. Products and sums are not fused; signed zeros are not told apart. What happens outside the ranges is C92. One channel (rank 1) of normalize_impulse is normalize_energy."
  },
  {
   "property": "C109",
   "status": "proved",
   "theorems": [
    "Neo.Props.C109_from_float",
    "Neo.Props.C109_monotone",
    "Neo.Props.C109_accuracy",
    "Neo.Props.C109_to_float",
    "Neo.Props.C109_to_half",
    "Neo.Props.C109_half_lossy",
    "Neo.Props.C109_double_rounds_up",
    "Neo.Props.C109_wide_storage",
    "Neo.Props.C109_fixed_point_mul",
    "Neo.Props.C109_fixed_point_mul_sse41",
    "Neo.Props.C109_float16_mul"
   ],
   "note": "(a) C109_from_float, (b) C109_monotone, (c) C109_accuracy and C109_double_rounds_up, (d) C109_to_float, C109_to_half, C109_half_lossy, (e) C109_fixed_point_mul and C109_fixed_point_mul_sse41, (f) C109_float16_mul; C109_wide_storage. Rounding to nearest even; signed zeros are not told apart. The complex branches of fixed_point_mul are not instantiated by the program and not modelled."
  },
  {
   "property": "C110",
   "status": "proved",
   "theorems": [
    "Neo.Props.C110_fft",
    "Neo.Props.C110_std",
    "Neo.Props.C110_round_trip",
    "Neo.Props.C110_tables",
    "Neo.Props.C110_growth"
   ],
   "note": "(a) C110_fft, C110_std, (b) C110_round_trip, (c) C110_tables, C110_growth. The loops are those of C16 over any arithmetic; rounding to nearest even; signed zeros are not told apart. The values std::sin and std::sqrt return, and the tables of twiddles, are arguments with an assumed accuracy."
  },
  {
   "property": "C111",
   "status": "proved",
   "theorems": [
    "Neo.Props.C111_rfftfreq_order",
    "Neo.Props.C111_rfftfreq_accuracy",
    "Neo.Props.C111_rfftfreq_vec",
    "Neo.Props.C111_decibel",
    "Neo.Props.C111_decibel_accuracy",
    "Neo.Props.C111_mel",
    "Neo.Props.C111_mel_frequencies",
    "Neo.Props.C111_allclose_symm",
    "Neo.Props.C111_allclose_refl",
    "Neo.Props.C111_close",
    "Neo.Props.C111_complex_close",
    "Neo.Props.C111_window",
    "Neo.Props.C111_window_one"
   ],
   "note": "(a) C111_window, C111_window_one, (b) C111_rfftfreq_order, C111_rfftfreq_accuracy, C111_rfftfreq_vec, (c) C111_decibel, C111_decibel_accuracy, (d) C111_mel, C111_mel_frequencies, (e) C111_allclose_symm, C111_allclose_refl, C111_close, C111_complex_close. std::cos, std::log10 and std::pow are arguments; what is assumed of them is stated in CosOk and LogOk and met by the correctly rounded functions (cosR_ok, log10R_ok, pow10R_mono). Products and sums are not fused; signed zeros are not told apart."
  },
  {
   "property": "C112",
   "status": "proved",
   "theorems": [
    "Neo.Props.C112_fft",
    "Neo.Props.C112_std",
    "Neo.Props.C112_round_trip",
    "Neo.Props.C112_growth"
   ],
   "note": "(a) C112_fft, C112_std, (b) C112_round_trip, (c) C112_growth. The loops are those of C17 over any arithmetic (OddRadix.run constructs the plan and calls it); rounding to nearest even; signed zeros are not told apart. The twiddles are arguments with an assumed accuracy, met by correctly rounded ones (C110_tables). Orders 19 and 13 and above overflow in m *= radix (C17)."
  },
  {
   "property": "C113",
   "status": "proved",
   "theorems": [
    "Neo.Props.C113_twiddle",
    "Neo.Props.C113_conj",
    "Neo.Props.C113_tables",
    "Neo.Props.C113_radix2",
    "Neo.Props.C113_radix2_std",
    "Neo.Props.C113_constants",
    "Neo.Props.C113_stockham",
    "Neo.Props.C113_in_place"
   ],
   "note": "(a) C113_twiddle, (b) C113_conj, C113_tables (the form the transform theorems take), (c) C113_constants, (d) C113_radix2, C113_radix2_std, C113_stockham, C113_in_place. std::cos and std::sin are arguments of assumed accuracy (CosOk, SinOk), met by the correctly rounded functions (cosR_ok, sinR_ok); std::polar multiplies the radius with cosine and sine, as in the common standard libraries; no fused products; no negative zero."
  },
  {
   "property": "C114",
   "status": "proved",
   "theorems": [
    "Neo.Props.C114_factor",
    "Neo.Props.C114_dft",
    "Neo.Props.C114_dft_explicit",
    "Neo.Props.C114_overflow",
    "Neo.Props.C114_mismatch"
   ],
   "note": "(a) C114_factor, (b) C114_dft, C114_dft_explicit, (c) C114_overflow, (d) C114_mismatch. std::cos and std::sin are arguments of assumed accuracy (CosOk, SinOk), met by the correctly rounded functions; in (c) they are NaN at infinities and NaN; in and out are distinct buffers; no fused products; no negative zero."
  },
  {
   "property": "C115",
   "status": "proved",
   "theorems": [
    "Neo.Props.C115_chirp",
    "Neo.Props.C115_plan",
    "Neo.Props.C115_dft",
    "Neo.Props.C115_dft_explicit"
   ],
   "note": "(a) C115_chirp, (b) C115_plan, (c) C115_dft, C115_dft_explicit. The inner transforms are the default in-place radix-2 plan with the twiddles of C113. std::cos and std::sin are arguments of assumed accuracy (CosOk, SinOk), met by the correctly rounded functions; no fused products; no negative zero."
  },
  {
   "property": "C116",
   "status": "proved",
   "theorems": [
    "Neo.Props.C116_scale",
    "Neo.Props.C116_plan",
    "Neo.Props.C116_dct",
    "Neo.Props.C116_dct_explicit"
   ],
   "note": "(a) C116_scale, (b) C116_plan, (c) C116_dct, C116_dct_explicit. The inner transform is the default in-place radix-2 plan with the twiddles of C113. std::exp, std::cos and std::sin are arguments of assumed accuracy (exp(0) = 1, CosOk, SinOk), met by the correctly rounded functions; no fused products; no negative zero. Order 0 is C18."
  },
  {
   "property": "C117",
   "status": "proved",
   "theorems": [
    "Neo.Props.C117_stream",
    "Neo.Props.C117_fft_convolve"
   ],
   "note": "(a), (c) C117_stream, (b), (c) C117_fft_convolve. Joins C96, C101, C104 and C113. The cosine and sine are arguments of assumed accuracy (CosOk, SinOk with one unit roundoff), met by the correctly rounded functions; no fused products; no negative zero."
  },
  {
   "property": "C118",
   "status": "proved",
   "theorems": [
    "Neo.Props.C118_render",
    "Neo.Props.C118_float",
    "Neo.Props.C118_split"
   ],
   "note": "C118_render; single precision: C118_float; the split-complex convolvers render the same bits: C118_split. One channel at a time: the copies between the interleaved buffers and the blocks are C57. Joins C108 and C117. The cosine and sine are arguments of assumed accuracy, met by the correctly rounded functions; no fused products; no negative zero."
  },
  {
   "property": "C119",
   "status": "proved",
   "theorems": [
    "Neo.Props.C119_no_memory",
    "Neo.Props.C119_separate",
    "Neo.Props.C119_stft",
    "Neo.Props.C119_windows",
    "Neo.Props.C119_float"
   ],
   "note": "C119_no_memory, C119_separate (any arithmetic); C119_stft (any window), C119_windows (the windows of the library), C119_float (single precision, default options). Options with overlap below the frame size and a frame that fits into the transform, as in C31. The cosine and sine are arguments of assumed accuracy, met by the correctly rounded functions; no fused products; no negative zero."
  },
  {
   "property": "C120",
   "status": "proved",
   "theorems": [
    "Neo.Props.C120_accuracy",
    "Neo.Props.C120_large",
    "Neo.Props.C120_small",
    "Neo.Props.C120_float"
   ],
   "note": "Accuracy: C120_accuracy; overflow: C120_large; underflow: C120_small; single precision: C120_float. The logarithm is an argument of assumed accuracy (LogNear), met by the correctly rounded one; no fused products. Exact arithmetic: C63."
  },
  {
   "property": "C121",
   "status": "proved",
   "theorems": [
    "Neo.Props.C121_hertz_to_mel",
    "Neo.Props.C121_mel_to_hertz",
    "Neo.Props.C121_round_trip",
    "Neo.Props.C121_mel_frequencies"
   ],
   "note": "(a) C121_hertz_to_mel, (b) C121_mel_to_hertz, (c) C121_round_trip, (d) C121_mel_frequencies. The model is that of C111 (Model/UnitsIeee). The logarithm and the power are arguments of assumed accuracy (LogNear, PowNear), met by the correctly rounded ones; no fused products. Exact arithmetic: C51."
  },
  {
   "property": "C122",
   "status": "proved",
   "theorems": [
    "Neo.Props.C122_weights"
   ],
   "note": "C122_weights. Joins C111 (bin frequencies) and C120. The logarithm is an argument of assumed accuracy (LogNear), met by the correctly rounded one; the sample rate is any real number. The decision whether a bin is kept is C123, in exact arithmetic C63."
  },
  {
   "property": "C123",
   "status": "proved",
   "theorems": [
    "Neo.Props.C123_decision"
   ],
   "note": "C123_decision. Relative to the gain and the factor as computed: the errors of std::abs and of the peak are added in C124. The logarithm is an argument of assumed accuracy (LogNear) that does not decrease (LogOk), met by the correctly rounded one. The decision in exact arithmetic is C63."
  },
  {
   "property": "C124",
   "status": "proved",
   "theorems": [
    "Neo.Props.C124_peak",
    "Neo.Props.C124_kept",
    "Neo.Props.C124_silent"
   ],
   "note": "C124_peak, C124_kept, C124_silent. Joins C122 and C123 with the peak search. The inputs are the filter bins as computed: the rounding of the partitioning transform is not part of it. The logarithm and std::abs are arguments of assumed accuracy, met by the correctly rounded ones. Largest moduli between 2^-75 and 2^-29 or above 2^29 are not covered; normalize_impulse scales the channels by one factor that gives the loudest of them unit energy."
  },
  {
   "property": "C125",
   "status": "proved",
   "theorems": [
    "Neo.Props.C125_pruned"
   ],
   "note": "C125_pruned. Joins C124 with C98. The decision is in single precision, the transforms and products of the two convolvers are in exact arithmetic; their rounding is C96. AbsNear (the accuracy of std::abs) is met by the correctly rounded modulus (absNear_round)."
  },
  {
   "property": "C126",
   "status": "proved",
   "theorems": [
    "Neo.Props.C126_nan_peak",
    "Neo.Props.C126_nan_bin",
    "Neo.Props.C126_infinite"
   ],
   "note": "C126_nan_peak, C126_nan_bin, C126_infinite. abs is an argument: std::abs of a complex number with an infinite part is infinite, otherwise with a NaN part it is NaN."
  }
 ]
}