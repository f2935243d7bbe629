{"id": "C01", "title": "fft() computes the discrete Fourier transform", "statement": "For every order from 1 up to the plan's maximum and every complex vector of 2^order samples, fft(plan, x) on the default (non-vendor) plan leaves in x exactly X[k] = sum_n x[n] e^{-2 pi i n k / N} (in exact arithmetic), ifft(plan, x) leaves the same sum with the conjugate kernel, and no element outside the buffers is touched.", "quantifier": "all orders >= 1, all input vectors, both directions, kernels v1, v2, v3 (and v4 for order >= 2)", "why_tests_cant": "The tests only check that fft followed by ifft returns the input for orders 2..14 on one random vector, which any scaled-unitary symmetric matrix satisfies.", "anchors": ["src/neo/fft/reference/c2c_dit2_plan.hpp: c2c_dit2_plan::operator()", "src/neo/fft/reference/kernel/c2c_dit2.hpp: c2c_dit2_v1..v4", "src/neo/fft/twiddle.hpp: make_twiddle_lut_radix2", "src/neo/fft/fft.hpp: fft, ifft"]}
{"id": "C02", "title": "ifft(fft(x)) == N * x", "statement": "For every order >= 1 and every x, ifft(plan, fft(plan, x)) = N*x and fft(plan, ifft(plan, x)) = N*x, N = plan.size(); consequently fft is injective.", "quantifier": "all orders >= 1, all inputs", "why_tests_cant": "Tests sample one random vector per order.", "anchors": ["src/neo/fft/fft.hpp: fft, ifft", "src/neo/fft/reference/c2c_dit2_plan.hpp"]}
{"id": "C03", "title": "All radix-2 kernels agree", "statement": "The four selectable radix-2 kernels give identical output for the same plan order and input, so that the kernel template argument is only a performance choice.", "quantifier": "all orders, all inputs, all pairs of kernels", "why_tests_cant": "Tests exercise orders 2..14 and round trips only; the smallest orders are never run.", "anchors": ["src/neo/fft/reference/kernel/c2c_dit2.hpp: c2c_dit2_v1, c2c_dit2_v2, c2c_dit2_v3, c2c_dit2_v4"]}
{"id": "C04", "title": "The size-1 transform is the identity and stays in bounds", "statement": "A plan created from order 0 (size 1, e.g. from next_order(1)) transforms a one-element buffer to itself without touching memory outside it.", "quantifier": "all one-element inputs, all radix-2 kernels and the split plan", "why_tests_cant": "No test constructs an order-0 plan.", "anchors": ["src/neo/fft/reference/kernel/c2c_dit2.hpp", "src/neo/fft/fallback/fallback_split_fft_plan.hpp", "src/neo/fft/order.hpp: next_order"]}
{"id": "C05", "title": "Plan construction accepts exactly the supported orders", "statement": "Creating an FFT plan from order o throws if and only if o exceeds max_order(); otherwise order() = o and size() = 2^o and size() <= max_size().", "quantifier": "all orders", "why_tests_cant": "Tests try one over-limit order.", "anchors": ["src/neo/fft/reference/c2c_dit2_plan.hpp: check_order, max_order, max_size"]}
{"id": "C06", "title": "Bit-reversal reordering is the bit-reversal permutation and an involution", "statement": "For every order, applying the plan's reordering table moves the sample at index i to the index whose order-bit binary representation is reversed, it is a permutation, applying it twice restores the input, and the table-free in-place reorder gives the same result on every power-of-two-sized buffer.", "quantifier": "all orders, all inputs", "why_tests_cant": "Tests can only enumerate a few sizes.", "anchors": ["src/neo/fft/reference/bitrevorder.hpp: bitrevorder_plan, bitrevorder"]}
{"id": "C07", "title": "Digit-reversal reordering is the base-R digit-reversal permutation", "statement": "For every radix R >= 2 and order, the digit-reversal plan permutes a buffer of R^order samples so that the element at index i and the element at the index with reversed base-R digits are exchanged; applying it twice is the identity.", "quantifier": "all radices >= 2, all orders, all inputs", "why_tests_cant": "Finite tests; the table is built by an incremental carry algorithm whose correctness is an induction.", "anchors": ["src/neo/fft/reference/digitrevorder.hpp: digitrevorder_plan"]}
{"id": "C08", "title": "rfft() returns the non-redundant half of the DFT", "statement": "For every order >= 1 and real input x of N samples, rfft writes exactly the N/2+1 bins X[0..N/2] of the DFT of x, the first and the last bin are real, and bins of the full transform above N/2 are the conjugates of the written ones.", "quantifier": "all orders >= 1, all real inputs", "why_tests_cant": "Tests check a round trip only.", "anchors": ["src/neo/fft/fallback/fallback_rfft_plan.hpp", "src/neo/fft/rfft.hpp: rfft"]}
{"id": "C09", "title": "irfft() inverts rfft() up to N", "statement": "For every order >= 1 and real x, irfft(rfft(x)) = N*x; and irfft of any N/2+1 coefficients is the real part of the inverse DFT of their Hermitian extension, independent of any extra elements beyond N/2 in the coefficient buffer.", "quantifier": "all orders >= 1, all inputs", "why_tests_cant": "Round-trip tests use one random vector; behaviour on non-Hermitian or over-long coefficient buffers is never checked (overlap_save passes one).", "anchors": ["src/neo/fft/fallback/fallback_rfft_plan.hpp", "src/neo/fft/rfft.hpp: irfft"]}
{"id": "C10", "title": "rfft_deinterleave() separates two real spectra", "statement": "If two real signals a and b are packed as a + i b and transformed once, rfft_deinterleave writes the N/2+1 DFT bins of a and of b, for every transform size N >= 1, even or odd.", "quantifier": "all sizes >= 1, all pairs of real signals", "why_tests_cant": "Tests cover power-of-two sizes 16..256 with random data.", "anchors": ["src/neo/fft/rfft.hpp: rfft_deinterleave"]}
{"id": "C11", "title": "dft_plan computes the DFT for every size", "statement": "For every size n >= 1 (not only powers of two) and both directions, the fallback dft_plan (chirp-z) leaves the n-point DFT of its input in the buffer, with all internal accesses in bounds.", "quantifier": "all sizes n >= 1 with 2n+1 <= 2^27 (the maximum size of the inner FFT), all inputs, both directions", "why_tests_cant": "Tests check impulse and random round trips up to 512.", "anchors": ["src/neo/fft/fallback/fallback_dft_plan.hpp", "src/neo/fft/dft.hpp: dft_plan"]}
{"id": "C12", "title": "The naive dft() is the DFT and its two directions are inverse up to N", "statement": "dft(in, out, forward) and dft(in, out, backward) compute the defining sums for every equal-size in/out pair; composing both gives N*x. Mismatched sizes are reported as an assertion failure.", "quantifier": "all sizes, all inputs", "why_tests_cant": "Sizes 4, 16, 21 only.", "anchors": ["src/neo/fft/dft.hpp: dft"]}
{"id": "C13", "title": "The split-complex FFT equals the interleaved FFT", "statement": "For every order >= 1 and both directions, transforming separate real and imaginary buffers gives the real and imaginary parts of the interleaved transform.", "quantifier": "all orders 1..30 (int loop bound), all inputs, both directions", "why_tests_cant": "Tests check only that real inputs round-trip in the real part.", "anchors": ["src/neo/fft/fallback/fallback_split_fft_plan.hpp", "src/neo/fft/split_fft.hpp"]}
{"id": "C14", "title": "The Stockham radix-2 plans compute the forward DFT", "statement": "For every order >= 1, fft(plan, x) with either Stockham radix-2 plan gives the same spectrum as the default plan.", "quantifier": "all orders >= 1, all inputs", "why_tests_cant": "The tests only check round trips, which hold for the conjugate transform too.", "anchors": ["src/neo/fft/reference/c2c_stockham_dif2_plan.hpp: c2c_stockham_dif2r_plan, c2c_stockham_dif2i_plan"]}
{"id": "C15", "title": "The in-place radix-4 plans compute the forward DFT", "statement": "For every order >= 1, fft(plan, x) with the radix-4 decimation-in-time or decimation-in-frequency plan gives the DFT of the 4^order samples.", "quantifier": "all orders >= 1, all inputs", "why_tests_cant": "The tests only check round trips.", "anchors": ["src/neo/fft/reference/c2c_dit4_plan.hpp"]}
{"id": "C16", "title": "The Stockham plans of radix 3, 4, 5 and 8 compute the DFT", "statement": "For every order >= 1 and both directions, fft/ifft with the Stockham radix-3, radix-4 (DIF and DIT), radix-5 and radix-8 plans give the DFT of size 3^o, 4^o, 5^o, 8^o, whatever the work buffer holds.", "quantifier": "all orders with size below 2^32 (beyond every max_order()), all inputs, all work buffers, both directions", "why_tests_cant": "The tests only check round trips at a few orders.", "anchors": ["src/neo/fft/reference/c2c_stockham_dif3_plan.hpp", "src/neo/fft/reference/c2c_stockham_dif4_plan.hpp", "src/neo/fft/reference/c2c_stockham_dif5_plan.hpp", "src/neo/fft/reference/c2c_stockham_dif8_plan.hpp", "src/neo/fft/reference/c2c_stockham_dit4_plan.hpp"]}
{"id": "C17", "title": "The in-place radix-3 and radix-5 plans compute the DFT", "statement": "For every order >= 1 and both directions, fft/ifft with the in-place radix-3 and radix-5 plans give the DFT of the 3^order (5^order) samples.", "quantifier": "all orders up to 18 (radix 3) and 12 (radix 5), which is one more than max_order(), all inputs, both directions", "why_tests_cant": "Round-trip tests at a few orders.", "anchors": ["src/neo/fft/reference/c2c_dif3_plan.hpp", "src/neo/fft/reference/c2c_dif5_plan.hpp"]}
{"id": "C18", "title": "dct2_plan computes the unnormalised DCT-II", "statement": "For every order >= 1 and real x, the plan leaves y[k] = 2 sum_n x[n] cos(pi k (2n+1) / (2N)) in the buffer (the scipy convention).", "quantifier": "all orders 1..27 (the maximum order of the inner FFT), all inputs", "why_tests_cant": "One 8-point example in the tests.", "anchors": ["src/neo/fft/dct.hpp: fallback_dct2_plan"]}
{"id": "C19", "title": "direct_convolve() is full linear convolution", "statement": "For all non-empty signal and patch, direct_convolve returns signal_size + patch_size - 1 samples with y[n] = sum_k signal[n-k] patch[k], every access in bounds; the result is commutative in its arguments.", "quantifier": "all non-empty lengths, all contents", "why_tests_cant": "Tests use a unit impulse patch and lengths up to 11.", "anchors": ["src/neo/convolution/direct_convolve.hpp: direct_convolve", "src/neo/convolution/mode.hpp: output_size"]}
{"id": "C20", "title": "fft_convolve() equals direct_convolve()", "statement": "For all signal and patch with signal_size + patch_size > 2 and both non-empty, fft_convolve returns the same samples as direct_convolve; if either is empty it returns an empty result.", "quantifier": "all lengths, all contents", "why_tests_cant": "Tests use a unit impulse patch.", "anchors": ["src/neo/convolution/fft_convolver.hpp: fft_convolver, fft_convolve"]}
{"id": "C21", "title": "overlap_add streams a linear convolution", "statement": "Driving overlap_add{B, F} block by block with a callback that multiplies the spectrum by the transform of an F-tap filter produces, for every history of blocks, the linear convolution of the whole input stream with the filter.", "quantifier": "all block sizes, filter lengths, all filters, all histories of blocks", "why_tests_cant": "Tests only use the identity callback, for which filter length and overlap bookkeeping are irrelevant.", "anchors": ["src/neo/convolution/overlap_add.hpp: overlap_add"]}
{"id": "C22", "title": "overlap_save streams a linear convolution", "statement": "Driving overlap_save{B, F} block by block with a callback that multiplies the first K/2+1 coefficients by the transform of an F-tap filter produces, for every history of blocks, the linear convolution of the whole input stream with the filter.", "quantifier": "all power-of-two block sizes and filter lengths F >= 1 except B = F = 1 (order-0 transform), all filters, all histories", "why_tests_cant": "Tests only use the identity callback.", "anchors": ["src/neo/convolution/overlap_save.hpp: overlap_save"]}
{"id": "C23", "title": "The uniformly partitioned convolvers compute the linear convolution with the loaded impulse response", "statement": "For an impulse response h partitioned with uniform_partition(h, B), every history of B-sample blocks fed to upola_convolver or upols_convolver yields the sample-exact linear convolution of the concatenated input with h (no latency, no dropped tail).", "quantifier": "all power-of-two B >= 2, all impulse-response lengths >= 1, all histories of blocks", "why_tests_cant": "Tests use a single identity partition followed by zeros, so segment order and delay-line indexing are not observable.", "anchors": ["src/neo/convolution/uniform_partitioned_convolver.hpp", "src/neo/convolution/uniform_partition.hpp", "src/neo/convolution/dense_convolver.hpp", "src/neo/convolution/dense_fdl.hpp", "src/neo/convolution/dense_filter.hpp"]}
{"id": "C24", "title": "Split-complex convolvers equal their interleaved counterparts", "statement": "split_upola_convolver and split_upols_convolver give the same output blocks as upola_convolver and upols_convolver for every filter matrix and every history of blocks.", "quantifier": "all filters, all histories", "why_tests_cant": "Identity filter only in tests.", "anchors": ["src/neo/convolution/dense_convolver.hpp: split_upola_convolver, split_upols_convolver", "src/neo/algorithm/multiply_add.hpp", "src/neo/convolution/dense_filter.hpp: dense_split_filter"]}
{"id": "C25", "title": "Sparse convolvers convolve with the thresholded filter", "statement": "sparse_upola_convolver / sparse_upols_convolver with predicate p behave for every history exactly like the dense convolver loaded with the matrix in which every entry rejected by p is replaced by zero; with an always-true predicate they equal the dense convolver.", "quantifier": "all filters, all predicates, all histories", "why_tests_cant": "Tests use only the always-true predicate and identity filter.", "anchors": ["src/neo/convolution/sparse_convolver.hpp", "src/neo/convolution/sparse_filter.hpp", "src/neo/container/csr_matrix.hpp", "src/neo/algorithm/multiply_add.hpp"]}
{"id": "C26", "title": "upola_convolver_v2 computes the linear convolution for every accepted call length", "statement": "For every sequence of calls whose lengths are at least the block size (the documented assertion), the concatenated output equals the linear convolution of the concatenated input with the impulse response.", "quantifier": "all filters, all sequences of call lengths >= block size", "why_tests_cant": "Tests only call it with exactly one block.", "anchors": ["src/neo/convolution/overlap_add_convolver.hpp"]}
{"id": "C27", "title": "Loading a new filter discards all history", "statement": "After filter(...) is called on a partitioned convolver that has already processed audio, its further output is the same as that of a freshly constructed convolver with the new filter.", "quantifier": "all histories before the reload, all pairs of filters, all histories after", "why_tests_cant": "Tests never reload a filter.", "anchors": ["src/neo/convolution/uniform_partitioned_convolver.hpp: filter", "src/neo/convolution/overlap_add_convolver.hpp: filter"]}
{"id": "C28", "title": "uniform_partition and the convolver agree on the block size", "statement": "For every block size B >= 1, partitioning with uniform_partition(h, B) and running the partitioned convolver on B-sample blocks convolves with h.", "quantifier": "all block sizes >= 1 (including 1 and non powers of two)", "why_tests_cant": "Tests partition only with B = 128 and never run the result.", "anchors": ["src/neo/convolution/uniform_partition.hpp", "src/neo/fft/stft.hpp", "src/neo/convolution/uniform_partitioned_convolver.hpp: filter"]}
{"id": "C29", "title": "The delay-line indexer pairs every stored block with the filter segment of its age", "statement": "For N >= 1 segments and after any number of steps, one step stores at the slot of the oldest block and then visits every slot exactly once, pairing the slot written j steps ago with filter segment j; reset() restarts the cycle.", "quantifier": "all N >= 1, any number of steps, any interleaving with reset", "why_tests_cant": "Tests follow 2 steps for N = 3.", "anchors": ["src/neo/convolution/fdl_index.hpp"]}
{"id": "C30", "title": "The convolver is causal, linear and time-invariant", "statement": "The output of a partitioned convolver for a block never depends on later blocks; outputs are linear in the input history; delaying the input by whole blocks of silence delays the output by the same amount.", "quantifier": "all histories, all filters", "why_tests_cant": "Universal over pairs of histories.", "anchors": ["src/neo/convolution/uniform_partitioned_convolver.hpp"]}
{"id": "C31", "title": "stft() covers every sample and stays in bounds", "statement": "For signal length S >= 1, frame size F > overlap O and transform size >= max(F, 2), the number of frames is ceil(S/(F-O)), every input sample lies in at least one frame, every read is in bounds and frame t is the rfft of the windowed, zero-padded samples from t(F-O) on.", "quantifier": "all S >= 1, F > O, all signals", "why_tests_cant": "Tests check shapes for two lengths.", "anchors": ["src/neo/fft/stft.hpp: num_sftf_frames, stft_plan"]}
{"id": "C32", "title": "csr_matrix built from a dense matrix reads back the filtered matrix", "statement": "After construction from a dense matrix and predicate p, element (r,c) is the dense value if p(r,c,value) holds and zero otherwise, for every in-range r,c.", "quantifier": "all matrices, all predicates", "why_tests_cant": "Tests use one matrix.", "anchors": ["src/neo/container/csr_matrix.hpp: csr_matrix(matrix, filter), operator()"]}
{"id": "C33", "title": "csr_matrix::insert behaves like updating a map", "statement": "For every sequence of in-range inserts, the element read at (r,c) is the last value inserted there (or the initial one), rows stay sorted by column, row offsets stay monotone and consistent with the stored values, and no access leaves the arrays.", "quantifier": "all sequences of inserts", "why_tests_cant": "Finite insert sequences in tests.", "anchors": ["src/neo/container/csr_matrix.hpp: insert, operator()"]}
{"id": "C34", "title": "Sparse multiply-add computes out = x * y[row] + z", "statement": "For a CSR row with at most one entry per column, multiply_add(x, y, row, z, out) yields out[c] = x[c]*y(row,c) + z[c] for every column.", "quantifier": "all matrices, all vectors", "why_tests_cant": "Tests accumulate in place only.", "anchors": ["src/neo/algorithm/multiply_add.hpp: multiply_add (csr_matrix)"]}
{"id": "C35", "title": "Vectorised and scalar multiply-add agree on every length", "statement": "The batched split-complex multiply-add (any batch width, plus scalar tail) gives the same result as the element-wise loop for every vector length below 2^31 (the range of the loop's int counter), touching every element exactly once and nothing beyond the end.", "quantifier": "all lengths below 2^31, all batch widths, all inputs, z separate or identical to the output", "why_tests_cant": "Tests use a few lengths on one instruction set.", "anchors": ["src/neo/algorithm/multiply_add.hpp"]}
{"id": "C36", "title": "Split-complex multiply-add is complex multiply-add", "statement": "Interpreting (re, im) buffers as complex numbers, the split multiply_add computes x*y+z element-wise.", "quantifier": "all lengths below 2^31, all inputs", "why_tests_cant": "Sampled values in tests.", "anchors": ["src/neo/algorithm/multiply_add.hpp"]}
{"id": "C37", "title": "bit_ceil is the least power of two not below its argument", "statement": "For unsigned widths 8, 16, 32 and 64 and every x with 1 <= x <= 2^(w-1), the portable bit_ceil returns the smallest power of two >= x, and std::bit_ceil returns the same for those x.", "quantifier": "all widths, all values", "why_tests_cant": "2^64 inputs.", "anchors": ["src/neo/bit/bit_ceil.hpp: bit_ceil_fallback"]}
{"id": "C38", "title": "next_order gives the smallest transform that fits", "statement": "For every integer type and every n from 1 to the largest power of two the type can represent, size(next_order(n)) >= n and no smaller order satisfies this; next_order(size(o)) = o for every order whose size is representable.", "quantifier": "all integer types, all n in range, all orders in range, both bit_ceil code paths", "why_tests_cant": "Finite tests.", "anchors": ["src/neo/fft/order.hpp", "src/neo/bit/bit_log2.hpp"]}
{"id": "C39", "title": "ipow is integer exponentiation", "statement": "All overloads and specialisations of ipow return base^exponent whenever the mathematical result fits the integer type, and the shift-based ones never shift by the type width or more in that case.", "quantifier": "all bases and exponents", "why_tests_cant": "Finite tests.", "anchors": ["src/neo/math/ipow.hpp"]}
{"id": "C40", "title": "idiv is ceiling division", "statement": "For y > 0 and x + y - 1 representable, idiv(x, y) is the least q with q*y >= x.", "quantifier": "all x, y", "why_tests_cant": "Finite tests.", "anchors": ["src/neo/math/idiv.hpp"]}
{"id": "C41", "title": "Fixed-point addition and subtraction saturate exactly", "statement": "For 8- and 16-bit storage, a+b and a-b equal the exact integer result clamped to the representable range; the operations are commutative (addition), monotone in each argument and never overflow internally.", "quantifier": "all pairs of values", "why_tests_cant": "2^32 pairs; tests use positive values without saturation.", "anchors": ["src/neo/fixed_point/fixed_point.hpp: operator+, operator-, saturate"]}
{"id": "C42", "title": "Fixed-point multiplication truncates and saturates", "statement": "For 8- and 16-bit storage and F fractional bits, a*b is floor(a*b / 2^F) clamped to the representable range, within one unit in the last place of the exact product when that is representable.", "quantifier": "all pairs of values", "why_tests_cant": "2^32 pairs.", "anchors": ["src/neo/fixed_point/fixed_point.hpp: operator*"]}
{"id": "C43", "title": "Fixed-point negation saturates", "statement": "-x is the exact negation except that negating the most negative value gives the most positive one; -(-x) = x except for the most negative value.", "quantifier": "all values", "why_tests_cant": "Tests never negate the minimum.", "anchors": ["src/neo/fixed_point/fixed_point.hpp: operator-"]}
{"id": "C44", "title": "Float/fixed conversions round-trip and are order preserving", "statement": "Converting any fixed-point value to float and back gives the same value; converting a float in range has error below one unit in the last place toward zero; out-of-range floats saturate; the conversion is monotone.", "quantifier": "all fixed-point values, all finite floats whose scaled value fits 32 bits", "why_tests_cant": "Infinite/huge domain.", "anchors": ["src/neo/fixed_point/fixed_point.hpp: fixed_point(Float), to_float, to_double"]}
{"id": "C45", "title": "Vectorised fixed-point arithmetic equals scalar arithmetic", "statement": "neo::add, neo::subtract and neo::multiply on spans of fixed-point values give, for every length, exactly the element-wise scalar result, whichever instruction set is compiled in.", "quantifier": "all lengths, all values, SSE2/SSE4.1 and NEON kernels", "why_tests_cant": "Tests use constant positive vectors with a tolerance.", "anchors": ["src/neo/fixed_point/algorithm.hpp", "src/neo/fixed_point/simd.hpp", "src/neo/simd/sse2.hpp: apply_kernel", "src/neo/simd/neon.hpp: apply_kernel"]}
{"id": "C46", "title": "Fixed-point complex multiplication approximates the complex product", "statement": "For 16-bit fixed-point complex numbers, lhs*rhs is the complex product scaled back to the format, and multiplication is commutative.", "quantifier": "all pairs of values", "why_tests_cant": "The one test pins a single product computed by the code itself.", "anchors": ["src/neo/fixed_point/complex.hpp: operator*"]}
{"id": "C47", "title": "The compressed delay line reproduces inserted spectra within half a quantisation step", "statement": "Reading back a spectrum inserted into compressed_fdl differs from it by at most 1/(2*max) per component whenever its components lie in [-1, 1]; components outside that range saturate.", "quantifier": "all spectra", "why_tests_cant": "Tests use 8 values inside the range.", "anchors": ["src/neo/convolution/compressed_fdl.hpp", "src/neo/container/compressed_accessor.hpp"]}
{"id": "C48", "title": "normalize_impulse bounds the energy of every channel and keeps channel balance", "statement": "After normalize_impulse, every channel has energy at most 1, the loudest has energy exactly 1 (unless all are silent), all channels are scaled by the same factor and no division by zero occurs.", "quantifier": "all matrices", "why_tests_cant": "Sampled.", "anchors": ["src/neo/convolution/normalize_impulse.hpp", "src/neo/algorithm/normalize_energy.hpp"]}
{"id": "C49", "title": "normalize_peak and normalize_energy reach their target", "statement": "normalize_peak leaves a vector/matrix with maximum magnitude 1 (unchanged if silent or empty); normalize_energy leaves energy 1 (unchanged if silent); both are idempotent.", "quantifier": "all inputs", "why_tests_cant": "Sampled.", "anchors": ["src/neo/algorithm/normalize_peak.hpp", "src/neo/algorithm/normalize_energy.hpp"]}
{"id": "C50", "title": "mean, variance, standard deviation and (root) mean squared error are the textbook quantities", "statement": "mean, variance and standard deviation return nothing for inputs that are too short, otherwise the population statistics; variance is non-negative, is zero exactly for constant inputs, is invariant under shifts and scales quadratically; the mean squared error is zero exactly for equal inputs.", "quantifier": "all inputs with extents below 2^31 (the loops count with int)", "why_tests_cant": "Sampled.", "anchors": ["src/neo/algorithm/mean.hpp", "src/neo/algorithm/variance.hpp", "src/neo/algorithm/standard_deviation.hpp", "src/neo/algorithm/mean_squared_error.hpp", "src/neo/algorithm/root_mean_squared_error.hpp"]}
{"id": "C51", "title": "Mel and decibel conversions are inverse and monotone", "statement": "hertz_to_mel and mel_to_hertz are mutually inverse and increasing on non-negative values; mel_frequencies runs from fmin to fmax in equal mel steps; amplitude_to_db is increasing, clamps at the floor, and above the floor is inverted by 10^(dB/20) (the library has no db_to_amplitude).", "quantifier": "all real arguments in the domain", "why_tests_cant": "Continuum.", "anchors": ["src/neo/unit/mel.hpp", "src/neo/unit/decibel.hpp"]}
{"id": "C52", "title": "Window functions are symmetric and bounded", "statement": "Every generated Hann/Hamming/rectangular window of size n >= 2 has w[i] = w[n-1-i] and 0 <= w[i] <= 1.", "quantifier": "all sizes >= 2, all positions", "why_tests_cant": "Sampled sizes.", "anchors": ["src/neo/math/windowing.hpp"]}
{"id": "C53", "title": "rfftfreq lists the bin centre frequencies", "statement": "rfftfreq(n, i, d) is i/(n d) and is increasing in i; the vector overload fills element i of a vector of n elements with the frequency of bin i of a transform of size n.", "quantifier": "all sizes and indices; vectors of fewer than 2^31 elements", "why_tests_cant": "Sampled.", "anchors": ["src/neo/fft/rfftfreq.hpp"]}
{"id": "C54", "title": "allclose/allmatch are reflexive, symmetric element-wise tests", "statement": "for equal extents allmatch(x, y, p) is true iff p holds for every pair of corresponding elements, and different extents are an assertion failure; allclose is reflexive and symmetric for every non-negative tolerance.", "quantifier": "all inputs with extents below 2^31 (the loops count with int)", "why_tests_cant": "Sampled.", "anchors": ["src/neo/algorithm/allmatch.hpp", "src/neo/algorithm/allclose.hpp"]}
{"id": "C55", "title": "scalar_complex arithmetic is complex arithmetic", "statement": "The library's own complex type implements +, -, *, / , conjugate and absolute value of the mathematical complex numbers, including the compound assignments when the right-hand side aliases the left-hand side.", "quantifier": "all values with nonzero divisor", "why_tests_cant": "Sampled.", "anchors": ["src/neo/complex/scalar_complex.hpp"]}
{"id": "C56", "title": "The FFT preserves energy and turns circular convolution into multiplication", "statement": "For the default plan, sum |X[k]|^2 = N sum |x[n]|^2; fft is linear; and the inverse of the product of two spectra is N times their circular convolution.", "quantifier": "all orders >= 1, all inputs", "why_tests_cant": "Universal over inputs.", "anchors": ["src/neo/fft/fft.hpp", "src/neo/fft/reference/c2c_dit2_plan.hpp"]}
{"id": "C57", "title": "Whole-file convolution with a final short block equals truncated convolution", "statement": "The block loop of the command-line convolver / plugin renderer (zero-padding the last block) returns, for every signal length and block size, the first signal_size samples of the linear convolution of the signal with the normalised impulse.", "quantifier": "all signal lengths up to 2^31 minus the block size (int loop counter), all power-of-two block sizes from 2 to 2^26, all impulse responses", "why_tests_cant": "Never tested.", "anchors": ["extra/cli/src/convolver.cpp: convolve", "extra/plugin/src/dsp/DenseConvolution.hpp: dense_convolve"]}
{"id": "C58", "title": "The plugin's frame buffer is a pure delay for an identity processor", "statement": "With a frame processor that leaves frames unchanged, ConstantOverlapAdd outputs its input delayed by frameSize-1 samples with unit gain, independent of how the host slices the stream into blocks.", "quantifier": "all frame sizes, all hop dividers, all slicings of all streams", "why_tests_cant": "Never tested.", "anchors": ["extra/plugin/src/dsp/ConstantOverlapAdd.hpp"]}
{"id": "C59", "title": "Python fft/ifft normalisation modes are mutually inverse", "statement": "For each norm in {backward, ortho, forward}, the Python bindings satisfy ifft(fft(x)) = x for every power-of-two length >= 2, and any other length is rejected.", "quantifier": "all lengths, all inputs, all norms", "why_tests_cant": "Sampled.", "anchors": ["extra/python/src/main.cpp: fft"]}
{"id": "C60", "title": "Element-wise vector algorithms are exact and in bounds", "statement": "copy, fill, scale, add and multiply write, for every extent, exactly the element-wise result, leave inputs unchanged unless aliased with the output, and report mismatched extents as an assertion failure.", "quantifier": "all extents, all contents", "why_tests_cant": "Sampled.", "anchors": ["src/neo/algorithm/copy.hpp", "src/neo/algorithm/fill.hpp", "src/neo/algorithm/scale.hpp", "src/neo/algorithm/add.hpp", "src/neo/algorithm/multiply.hpp"]}
{"id": "C61", "title": "The plugin's streaming convolution is a delayed convolution for every slicing", "statement": "DenseConvolution, prepared for host blocks of at most B samples and reset, outputs channel by channel twice the linear convolution of the input with the normalised impulse response, delayed by F-1 samples where F is the smallest power of two >= B, independent of how the host slices the stream; no host block causes an out-of-bounds access.", "quantifier": "all B from 2 to 2^26, all impulse responses, all numbers of channels up to that of the impulse response, all slicings of all streams", "why_tests_cant": "Never tested; the plugin has no tests.", "anchors": ["extra/plugin/src/dsp/DenseConvolution.cpp", "extra/plugin/src/dsp/ConstantOverlapAdd.hpp"]}
{"id": "C62", "title": "The experimental in-place real FFT computes the packed half spectrum", "statement": "The experimental rfft plan of order n, called forward on a buffer of 2^n real samples, leaves the first half of their DFT in packed form (real parts of bin 0 and of the Nyquist bin in the first two slots, then real and imaginary parts of bins 1 .. N/2-1); backward after forward multiplies the buffer by N/2; its inner complex plan computes the DFT and the unnormalised inverse DFT of the interleaved buffer; nothing is accessed out of bounds.", "quantifier": "all orders up to 30, all buffers, both directions", "why_tests_cant": "Tests only compare the round trip, in which a wrong forward spectrum cancels.", "anchors": ["src/neo/fft/experimental/rfft.hpp"]}
{"id": "C63", "title": "The plugin's sparse renderer drops exactly the inaudible bins", "statement": "sparse_convolve returns, channel by channel, the overlap-added circular convolutions of the signal blocks with the responses obtained from the blocks of the normalised impulse by zeroing exactly those spectral bins whose power relative to the channel's strongest bin, in dB with a floor of -72 and with the A-weighting of the bin frequency (or +100 dB for the first lowBinsToKeep bins) added, does not exceed the threshold; when every dropped bin is zero the result is the exact linear convolution; no access is out of bounds.", "quantifier": "all signals, impulse responses, channel counts up to that of the impulse response, power-of-two block sizes from 2 to 2^26, sample rates, thresholds and lowBinsToKeep from 0 to the number of bins", "why_tests_cant": "Never tested; the plugin has no tests.", "anchors": ["extra/plugin/src/dsp/DenseConvolution.cpp: sparse_convolve", "src/neo/math/a_weighting.hpp", "src/neo/convolution/sparse_convolver.hpp"]}
{"id": "C64", "title": "Rounding errors of the default FFT grow at most linearly with the order", "statement": "When every arithmetic operation, conversion and library call of the default FFT plan is rounded with unit roundoff u (cos/sin accurate to eps), fft and ifft still never fault and return the DFT / unnormalised inverse DFT with a relative error in the Euclidean norm of at most (1+g)^order - 1 with an explicit g(u, eps); for u <= 2^-20 and eps <= 2u this is at most 32*order*u. ifft(fft(x)) differs from N*x by a relative error of at most (1+g)^(2 order) - 1.", "quantifier": "all orders 1 to 27, all inputs, both directions, all four kernels (v4 from order 2), every rounding function with relative error at most u", "why_tests_cant": "Tests compare with a tolerance on a few random inputs.", "anchors": ["src/neo/fft/reference/c2c_dit2_plan.hpp", "src/neo/fft/reference/kernel/c2c_dit2.hpp", "src/neo/fft/twiddle.hpp", "src/neo/complex/scalar_complex.hpp"]}
{"id": "C65", "title": "The level histogram counts every bin once at its rounded weighted level", "statement": "powerHistogram returns 144 counters without faulting; counter i is the number of spectrogram bins whose level relative to the strongest bin, plus the weight of the bin, limited to -143..0 dB, rounds to -i dB; the counters sum to the number of bins. The bars of powerHistogramImage are proportional to the counters, stay inside the image and the tallest fills it.", "quantifier": "all non-empty spectrograms with fewer than 2^31 bins, all finite weightings (bars: all weights above -70.5 dB)", "why_tests_cant": "The plugin has no tests; the index computation goes through NaN and infinity for silent input.", "anchors": ["extra/plugin/src/dsp/Spectrum.cpp"]}
{"id": "C66", "title": "The spectrogram image marks the bins whose weighted level is below the threshold", "statement": "powerSpectrumImage returns an image with one column per frame and one row per bin, bin 0 at the bottom; a pixel is white exactly if the level of its bin relative to the strongest bin plus the weight of the bin is below the threshold, else black.", "quantifier": "all non-empty spectrograms with extents below 2^31, all finite weightings, all thresholds", "why_tests_cant": "The plugin has no tests; with a constant weighting a wrong weight index is invisible.", "anchors": ["extra/plugin/src/dsp/Spectrum.cpp", "extra/plugin/src/ui/BenchmarkTab.cpp"]}
{"id": "C67", "title": "The displayed percentage is the share of audible filter bins", "statement": "runWeightingTests displays 100 times the number of filter values whose level relative to the strongest value of all channels, plus the A-weighting of their frequency if selected (bin 0 unweighted), is above the threshold, divided by the number of values.", "quantifier": "all partitions with at least one channel, frame and bin, at most 1024 bins and fewer than 2^31 values; all nonzero sample rates and thresholds", "why_tests_cant": "The plugin has no tests.", "anchors": ["extra/plugin/src/ui/BenchmarkTab.cpp"]}
{"id": "C68", "title": "Accuracy of the fast logarithms", "statement": "For every positive normal float and every rounding of the individual operations with relative error at most 2^-24, fast_log2 is within 2.5e-4 of the binary logarithm, fast_log10 within 1e-4 of the decimal logarithm, and amplitude_to_db<precision::estimate> within 0.0021 dB of max(infinity, 20 log10 gain), and equal to infinity for gains that are not positive. Without rounding fast_log2 is strictly increasing in the bit pattern. For subnormal numbers the result is wrong (about -127 for 2^-149).", "quantifier": "all 2^31-2^24 positive normal bit patterns; all rounding functions with unit roundoff 2^-24; all floors", "why_tests_cant": "Two thousand million bit patterns times every rounding; a test samples some of them on one machine.", "anchors": ["src/neo/math/fast_math.hpp:12-25", "src/neo/unit/decibel.hpp:14-25"]}
{"id": "C69", "title": "Block-wise rendering through neo::Convolution is linear convolution", "statement": "processBlocks with a neo::Convolution, new or used before in any way, returns for each channel the first size samples of the linear convolution of the signal with that channel of the impulse response (resampled, not normalised). Only true of the complete blocks: the final incomplete block is passed through unprocessed. A file that cannot be read leaves the signal unchanged; reset() removes the filter until the next prepare().", "quantifier": "all channel counts, signal lengths, power-of-two block sizes, impulse responses, resamplers and earlier states of the object", "why_tests_cant": "Quantifies over the object's history and over all signal lengths relative to the block size.", "anchors": ["extra/plugin/src/dsp/Convolution.hpp:22-104", "extra/plugin/src/dsp/AudioBuffer.hpp:40-68", "extra/plugin/src/ui/BenchmarkTab.cpp:31-57"]}
{"id": "C70", "title": "The split-radix FFT snippet computes the DFT and its inverse", "statement": "split_radix_fft_plan of n points, called forward, writes the DFT of the input to the output; called backward it writes the unnormalised inverse DFT; for every size the recursion ends, no int arithmetic overflows and nothing is accessed out of bounds.", "quantifier": "all sizes, all inputs, both directions", "why_tests_cant": "The snippet's main prints one four-point transform of an impulse at 0, whose spectrum is symmetric in the sign of i.", "anchors": ["extra/snippet/split_radix.cpp"]}
{"id": "C71", "title": "Rounding errors of direct_convolve", "statement": "When every product and sum is rounded with unit roundoff u, direct_convolve of two non-empty inputs of n and l samples returns n+l-1 samples without a fault, and sample k differs from the exact convolution of the inputs by at most ((1+u)^(min(n,l)+1) - 1) times sample k of the convolution of the absolute values (complex samples: (1+u)^min(n,l) (1 + sqrt2 (2u+u^2)) - 1); this is at most 2 (min(n,l)+1) u times it while (min(n,l)+1) u <= 1. For non-negative inputs it is a relative error.", "quantifier": "all non-empty real and complex inputs, every rounding function with relative error at most u", "why_tests_cant": "Tests compare a few short signals with a tolerance.", "anchors": ["src/neo/convolution/direct_convolve.hpp"]}
{"id": "C72", "title": "Rounding errors of rfft, irfft and fft_convolve", "statement": "When every operation, conversion and library call is rounded with unit roundoff u (cos/sin accurate to eps), rfft returns the first N/2+1 DFT coefficients and irfft the real part of the unnormalised inverse DFT of the Hermitian extension, each with the relative Euclidean error of the complex transform. fft_convolve of two inputs of at least 2 samples whose convolution has at most 2^27 samples returns n+l-1 samples whose Euclidean distance to the exact convolution is at most an explicit factor (at most 136*b*u for u <= 2^-20, eps <= 2u) times sqrt(2^b) |x|_2 |y|_2, with 2^b the transform size.", "quantifier": "all orders 1 to 27, all inputs of at least two samples, every rounding function with relative error at most u", "why_tests_cant": "Tests compare a few signals with a tolerance.", "anchors": ["src/neo/fft/fallback/fallback_rfft_plan.hpp", "src/neo/convolution/fft_convolver.hpp", "src/neo/algorithm/scale.hpp", "src/neo/algorithm/multiply.hpp"]}
{"id": "C73", "title": "Rounding errors of the streaming partitioned convolvers do not accumulate", "statement": "When every operation of uniform_partition, the FFTs, the multiply-accumulate over the delay line and the overlap stage is rounded with unit roundoff u, a fresh upols/upola convolver loaded with the N partitions of an impulse response h returns, for every list of B=2^a-sample blocks, blocks of the same lengths. In block t the Euclidean distance to the exact convolution is at most a factor G(u,eps,a,N) times sqrt(2B) times the sum over j of (norm of the input window of block t-j) times (norm of segment j of h); for overlap-add twice (blocks t and t-1) plus one rounding. G <= (130(a+1)+4N+12)u for u <= 2^-20, eps <= 2u. Only the last N+1 input blocks enter: for full-scale input the bound is the same for every output sample of arbitrarily long streams.", "quantifier": "all impulse responses, all block sizes 2^a with 1 <= a <= 26, all numbers of blocks and all sample values, every rounding function with relative error at most u", "why_tests_cant": "Tests compare a short stream with a tolerance; they cannot show the absence of drift in a convolver that runs for hours.", "anchors": ["src/neo/convolution/uniform_partitioned_convolver.hpp", "src/neo/convolution/overlap_add.hpp", "src/neo/convolution/overlap_save.hpp", "src/neo/convolution/uniform_partition.hpp", "src/neo/convolution/dense_convolver.hpp", "src/neo/fft/stft.hpp"]}
{"id": "C74", "title": "Half-precision SIMD batches round correctly", "statement": "For all binary16 operands, infinities and NaN included, every lane of +, - and * of float16x8 and float16x16, which compute in binary32 and round a second time, is the exact result rounded once to binary16 (nearest, ties to even, overflow to infinity). A load-compute-store step writes exactly the lanes of one batch and stays in bounds if the buffers hold a whole batch.", "quantifier": "all pairs of binary16 values, all buffers and offsets", "why_tests_cant": "The test fills the registers with the constants 1 and 2; there are 2^32 operand pairs per operator.", "anchors": ["src/neo/simd/avx.hpp: float16x8, float16x16"]}
{"id": "C75", "title": "Vendor FFT plans compute the transform and are interchangeable with the fallback plan", "statement": "If the vendor library does what it documents (vDSP_fft_zop, DftiComputeForward/Backward, ippsFFT*/ippsDFT* compute the unnormalised DFT of a contiguous buffer, ippsFFT*ToCCS the half spectrum in CCS order), then apple_vdsp_fft_plan, intel_mkl_fft_plan, intel_ipp_fft_plan and intel_ipp_dft_plan, in any state reached by earlier calls and for contiguous as well as strided vectors, compute the DFT or the unnormalised inverse DFT, in place and out of place; the split-complex plans do the same on both planes for every layout; intel_ipp_rfft_plan writes exactly the bins 0..N/2 and inverts spectra whose first and last bin are real, up to the factor N. Unsupported orders throw. Hence on every input the vendor plans return what the fallback plan returns.", "quantifier": "all orders, all inputs, all reachable plan states, all vector layouts, every library meeting the documented contract", "why_tests_cant": "Each back end is tested only on the machine that has it, on contiguous data, against itself.", "anchors": ["src/neo/fft/backend/vdsp.hpp", "src/neo/fft/backend/mkl.hpp", "src/neo/fft/backend/ipp.hpp"]}
{"id": "C76", "title": "Vendor plans release every library object exactly once", "statement": "For every program that constructs, moves, move-assigns, calls and destroys vendor plans (vDSP, MKL, IPP): no library object is released twice, no released object is handed to the library, and when all plans are gone every object has been released.", "quantifier": "all sequences of operations on any number of plans", "why_tests_cant": "A leak or a dangling pointer does not change any computed value, and the tests move plans only once after construction.", "anchors": ["src/neo/fft/backend/vdsp.hpp:37-54", "src/neo/fft/backend/mkl.hpp:27-40", "src/neo/fft/backend/ipp.hpp:131-140"]}
{"id": "C77", "title": "SIMD FFT plans transform every lane independently", "statement": "simd_fft_plan and simd_split_fft_plan of the benchmark program, which run the library's kernels on batches of w samples, leave in every lane the DFT (forward) or the unnormalised inverse DFT (backward) of the signal in that lane, for every number of lanes and every kernel; the out-of-place call gives the result of the in-place call; buffers of the wrong length assert.", "quantifier": "all lane counts, all orders from 1 (split: 1 to 30), all four kernels (v4 from order 2), all inputs, both directions", "why_tests_cant": "The benchmark only measures time; it never looks at a result.", "anchors": ["extra/benchmark/src/simd_fft.cpp"]}
{"id": "C78", "title": "Compile-time FFT plans compute the transform", "statement": "The interleaved and the split plan of the snippet, whose stages are unrolled by recursion over a template parameter, compute the DFT and the unnormalised inverse DFT, agree with each other on both planes and (up to order 27) with the library's plan. A timed benchmark step (forward, backward, scale by 1/N) returns the buffer unchanged, however often it is repeated. No size is checked: with a buffer of any other length the interleaved plan accesses memory out of bounds.", "quantifier": "all orders from 1 (the snippet compiles up to 30), all inputs, both directions, all numbers of runs", "why_tests_cant": "The program prints run times only.", "anchors": ["extra/snippet/split_fft.cpp"]}
{"id": "C79", "title": "Radix-4 and Stockham snippets compute the DFT", "statement": "c2c_dit4 (both versions) and c2c_stockham of radix4.cpp and the plan of stockham.cpp compute the forward DFT and the unnormalised inverse DFT of a buffer of 4^order or 2^order samples, leave the result in the caller's buffer for odd and even orders, whatever the work buffer holds, and forward followed by inverse gives N times the input.", "quantifier": "all orders, all inputs, all contents of the work buffer, both directions", "why_tests_cant": "The programs print one forward and backward transform; a round trip cannot see a wrong transform.", "anchors": ["extra/snippet/radix4.cpp", "extra/snippet/stockham.cpp"]}
{"id": "C80", "title": "The real transform snippet computes the packed half spectrum", "statement": "fft of rfft.cpp computes, for isign = 1 and -1, the unnormalised sums with exp(+2 pi i nk/N) and exp(-2 pi i nk/N); rfft with 1 leaves in place the packed half spectrum of its input for the first kernel, rfft with -1 undoes it up to the factor N/2, in either order, with nothing out of bounds; after k passes of the benchmark loop the buffer is (N/2)^k times the initial one (beyond the range of float for k >= 128); lengths whose half is not a power of two are accessed out of bounds.", "quantifier": "all lengths 2^order with 1 <= order <= 30, all inputs, both signs, all numbers of passes; all other lengths for the fault", "why_tests_cant": "The program prints the spectrum of one impulse of length 16.", "anchors": ["extra/snippet/rfft.cpp"]}
{"id": "C81", "title": "neo.convolve returns the full convolution of two NumPy arrays", "statement": "neo.convolve(in1, in2, mode='full', method) returns the n+l-1 samples of the full convolution of its two one-dimensional arguments, for every memory layout, every pair of numeric element types and every method; the modes 'valid' and 'same' and arguments that are not one-dimensional raise; the views handed to fft and ifft hold the elements of the array whatever its contiguity flags; rfftfreq(n, d) lists the frequencies i/(n d).", "quantifier": "all lengths, all strides, all memory contents, all element types, all mode and method strings", "why_tests_cant": "The tests use freshly allocated contiguous float64 arrays with a unit impulse as second argument, of at least two elements.", "anchors": ["extra/python/src/main.cpp: as_mdspan, convolve, rfftfreq", "extra/python/src/neo/__init__.py: convolve"]}
{"id": "C82", "title": "Scalar helpers: real, imag, abs, parity", "statement": "math::real and math::imag return the real and imaginary part, z = real(z) + i imag(z), for complex and for real arguments; math::abs of an integer is its absolute value for every value of every standard integer type; is_even and is_odd decide parity, also of negative numbers.", "quantifier": "all complex and real numbers, all values of all standard integer types", "why_tests_cant": "Tests look at a handful of small positive values.", "anchors": ["src/neo/math/real.hpp", "src/neo/math/imag.hpp", "src/neo/math/abs.hpp", "src/neo/math/is_even.hpp", "src/neo/math/is_odd.hpp"]}
{"id": "C83", "title": "Vendor versions of scale and multiply_add agree with the portable loops", "statement": "If the library does what it documents, scale of a contiguous vector through cblas_?scal leaves the vector of the portable loop, and multiply_add of split-complex vectors through vDSP_zvma the two planes of the portable loop, also with the addend in the output's storage.", "quantifier": "all lengths and contents, all integer widths of the BLAS interface, every library meeting its documentation", "why_tests_cant": "Each back end is compiled only where the library is installed, and tests use short vectors.", "anchors": ["src/neo/algorithm/backend/cblas.hpp", "src/neo/algorithm/scale.hpp", "src/neo/algorithm/multiply_add.hpp:76-102,328-357"]}
{"id": "C84", "title": "The DCT formulas of dct.py compute the type-2 DCT", "statement": "dct2_2nfft_1 (mirrored sequence), dct2_2nfft_2 (zero padding) and dct2_nfft (even samples followed by the odd ones reversed, with separate slices for odd lengths) return, for every non-empty list, the unnormalised DCT-II 2*sum x[n] cos(pi k (2n+1)/(2N)), and agree with the library's dct2 plan at the sizes it accepts; an empty list raises.", "quantifier": "all lengths N >= 0, even and odd, all real inputs, all contents of uninitialised arrays", "why_tests_cant": "The script prints one transform of length 8.", "anchors": ["extra/snippet/dct.py"]}
{"id": "C85", "title": "The FFTs of radix4.py compute the DFT", "statement": "Radix-4 and radix-2 transforms of the script, decimation in frequency and in time, with digitreversal before or after, return the DFT of every array of radix^L elements, L >= 2; digitreversal moves element i to the position with the digits of i reversed, in any radix from 2, for even and odd numbers of digits; for L <= 1 digitreversal raises, and with it the four drivers.", "quantifier": "all L, all inputs, all radices from 2 for the permutation", "why_tests_cant": "The script compares lengths 4^2 to 4^9 with NumPy, so it never sees an odd number of radix-2 digits or fewer than two digits.", "anchors": ["extra/snippet/radix4.py"]}
{"id": "C86", "title": "neo_convolver writes the rendered file or reports failure", "statement": "With four arguments, two complete WAV files of equal channel count and rate, sizes in range and a writeable output, neo_convolver exits with status 0, and the output file has the signal's channels, frames and rate and holds, channel by channel, the first frames of the convolution scaled to peak magnitude 1; no other file changes. Otherwise (wrong number of arguments, different channels or rates, an unreadable input, an output that cannot be written) it exits with status 1 and changes no file.", "quantifier": "all argument lists, all file systems, all file contents, all sizes below the stated limits", "why_tests_cant": "The program has no test.", "anchors": ["extra/cli/src/convolver.cpp:61-148", "extra/cli/src/wav.hpp"]}
{"id": "C87", "title": "The plugin mixes the amplified input with its convolution", "statement": "For every supported layout (mono or stereo, equal input and output), every stream of host blocks not longer than announced, however sliced, and every sequence of parameters, the plugin's output after prepareToPlay is outGain times the mix (DryWetMixer, rule balanced) of the dry signal, which is inGain times the input, and the wet signal, which is the convolution of the dry signal with the normalised impulse response (the dry signal itself without an impulse response), both delayed by the latency the plugin reports, and silence before; after the reported tail nothing follows. Before prepareToPlay the output is the input times both gains.", "quantifier": "all layouts, block sizes, parameter sequences, impulse responses and inputs", "why_tests_cant": "The plugin has no test.", "anchors": ["extra/plugin/src/PerceptualConvolution.cpp:15-52", "extra/plugin/src/PluginProcessor.cpp:46-85", "extra/plugin/src/dsp/DenseConvolution.cpp", "extra/plugin/src/dsp/ConstantOverlapAdd.hpp"]}
{"id": "C88", "title": "Split-complex and sparse code rounds like the interleaved dense code", "statement": "In rounded arithmetic split_fft_plan produces, bit for bit, the planes of what the interleaved default plan produces (forward; backward if rounding, cos and sin are symmetric about zero), with the error bound of C64 in both directions; split_upola_convolver and split_upols_convolver return bit for bit the output of upola_convolver and upols_convolver; and if rounding is idempotent the sparse convolvers return bit for bit the output of the dense ones for the thresholded matrix.", "quantifier": "all formats obeying the standard model, all orders up to 27, all buffers, filter matrices, predicates, block lengths and numbers of blocks", "why_tests_cant": "Tests compare with a tolerance and cannot distinguish equal from nearly equal results.", "anchors": ["src/neo/fft/fallback/fallback_split_fft_plan.hpp", "src/neo/convolution/dense_convolver.hpp:32-42", "src/neo/convolution/sparse_convolver.hpp:16-22", "src/neo/convolution/dense_filter.hpp", "src/neo/convolution/dense_fdl.hpp", "src/neo/convolution/sparse_filter.hpp"]}
{"id": "C89", "title": "Split-complex fixed-point multiply-add", "statement": "multiply_add on split-complex vectors of q7 or q15, or of the register classes q7x16, q15x8, q15x16 and q15x32, evaluates x*y+z, with z possibly being the output, without overflow or access out of bounds. Every component differs by at most two units in the last place from the exact x*y saturated, plus z, saturated (hence from x*y+z saturated once, if the exact product is representable). Register classes give in every lane what the element type gives, up to that error. The same holds for the benchmark's product cmulp, without z.", "quantifier": "all vectors, all lengths below 2^31, all representable values, with and without aliasing", "why_tests_cant": "Tests use a few small values; full-scale operands and the signs of the 2^64 combinations are not enumerable.", "anchors": ["src/neo/algorithm/multiply_add.hpp:328-368", "src/neo/fixed_point/simd.hpp", "src/neo/fixed_point/fixed_point.hpp:73-95", "extra/benchmark/src/fixed_point.cpp:120-195"]}
{"id": "C90", "title": "Rounding errors of dft, dft_plan and dct2_plan", "statement": "In rounded arithmetic, for every format obeying the standard model: dft_plan (Bluestein) of any size n with 2n+1 <= 2^27, in every state reachable by construction and calls, produces in both directions the transform with an error of at most (g-1) sqrt(2^b) sqrt(2n-1) ||x||, 2^b being the inner size and g the stated product of the errors of its steps; for u <= 2^-20 and cos/sin accurate to 2u this is at most 473 b u sqrt(n) times the norm of the exact result. The naive dft of size N has in every output an error of at most 63 N u sum|x| if N u <= 2^-10. dct2_plan of order b has an error of at most 106 b u sqrt(2^b) ||x||. Buffers of another length trip the assertion.", "quantifier": "all formats obeying the standard model, all sizes in range, all buffers, both directions, all reachable plan states", "why_tests_cant": "Tests compare a few sizes and random buffers with a fixed tolerance; a bound for all sizes and inputs cannot be tested.", "anchors": ["src/neo/fft/dft.hpp:34-57", "src/neo/fft/fallback/fallback_dft_plan.hpp:23-96", "src/neo/fft/dct.hpp:23-68"]}
{"id": "C91", "title": "Rounding errors of the statistics and normalisation functions", "statement": "Let every floating-point sum, difference, product, quotient, square root and size conversion have relative error at most u < 1 (no overflow or underflow), and let g(k) = k u / (1 - k u). For n numbers of any values: the computed mean differs from the exact mean by at most (1+u)^(n+1)/(1-u) - 1 <= g(n+2) times the mean magnitude; the computed variance is (variance + (error of the computed mean)^2) up to a factor between (1-u)^(n+4)/(1+u) and (1+u)^(n+4)/(1-u), and the standard deviation is its root up to one more rounding; mean_squared_error and root_mean_squared_error have relative errors at most g(n+5) and g(n+6). normalize_peak scales by a number within relative error u of 1/peak, so the new peak lies between (1-u)^2 and (1+u)^2; normalize_energy leaves an energy within g(n+7) of 1; normalize_impulse leaves every channel of n samples with energy at most (1+u)^4/(1-u)^(n+3), and one with energy at least (1-u)^4/(1+u)^(n+3) unless some channel is silent. Silent inputs are returned unchanged. Vectors and rank-2 views alike.", "quantifier": "For every rounding with relative error u < 1, every vector or valid rank-2 view, every length below 2^31 for mean and variance (any length otherwise), and all values.", "why_tests_cant": "A test compares a few sums with a tolerance; it cannot show that no input makes the relative error of the mean squared error or of the normalised energy exceed the bound.", "anchors": ["src/neo/algorithm/mean.hpp:18-50", "src/neo/algorithm/variance.hpp:16-44", "src/neo/algorithm/standard_deviation.hpp:16-23", "src/neo/algorithm/mean_squared_error.hpp:16-55", "src/neo/algorithm/root_mean_squared_error.hpp:18-23", "src/neo/algorithm/normalize_peak.hpp:19-59", "src/neo/algorithm/normalize_energy.hpp:17-50", "src/neo/convolution/normalize_impulse.hpp:11-33"]}
{"id": "C92", "title": "Normalisation and mean over the whole range of a floating-point format", "statement": "In IEEE 754 arithmetic (rounding to nearest, subnormal numbers, overflow to infinity; precision P): after normalize_peak of any vector or rank-2 view of finite samples that is not silent, every sample is finite, differs from sample/peak by at most 2^(1-P), has magnitude at most 1, and the peak has magnitude at least 1-2^-P; a silent input is unchanged; NaN samples do not influence the others. normalize_energy of finite samples that are not all zero gives samples with energy about 1, and mean of finite samples is finite.", "quantifier": "For every IEEE binary format (binary16, binary32, binary64 among them), every vector and every valid rank-2 view in either loop order, and all values of the format including subnormal numbers, infinities and NaN.", "why_tests_cant": "Tests use samples of ordinary size. Overflow of the reciprocal of a subnormal peak, subnormal factors and the exact ranges where they happen need a proof over all values of the format.", "anchors": ["src/neo/algorithm/normalize_peak.hpp:19-59", "src/neo/algorithm/scale.hpp:15-30", "src/neo/algorithm/normalize_energy.hpp:17-50", "src/neo/algorithm/mean.hpp:18-50"]}
{"id": "C93", "title": "The partitioned convolvers have finite memory in any arithmetic, and recover from NaN", "statement": "Let N be the number of partitions. Whatever the arithmetic operations do (rounding, overflow, infinities, NaN; only complex addition is assumed commutative), output block t of upola_convolver and of upols_convolver depends, bit for bit, on nothing but the input blocks t-N..t and, after the first N blocks, on t modulo N. In IEEE 754 arithmetic, for every filter and every twiddle table: a NaN anywhere in input block i turns every sample of the output blocks i..i+N into NaN, also the samples before it in block i, and has no effect on any other output block. The dependence on t modulo N is real: in binary32 a steady input can give an output that is not steady.", "quantifier": "For all number types and operations, all block sizes 2^a with 1 <= a <= 26, all filters (any valid view with at least one row and 2^a+1 columns), all streams of any number of blocks, all binary formats, and all positions of the NaN.", "why_tests_cant": "A test with a NaN shows that one stream recovers for one filter; it cannot show that no other state (overlap buffer, window, delay line, plan buffer) keeps a trace of it, for all filters, sizes and streams.", "anchors": ["src/neo/convolution/uniform_partitioned_convolver.hpp:16-65", "src/neo/convolution/overlap_add.hpp:20-107", "src/neo/convolution/overlap_save.hpp:20-112", "src/neo/convolution/dense_convolver.hpp:20-24", "src/neo/fft/fallback/fallback_rfft_plan.hpp:14-61", "src/neo/complex/scalar_complex.hpp:35-57"]}
{"id": "C94", "title": "The benchmark tab analyses the whole impulse and measures the error of the sparse rendering", "statement": "Loading an impulse response stores the Hann-windowed spectrogram of all its samples and the spectra of the 512-sample blocks of the whole normalised impulse. The sparse quality test prints, for 180 dynamic ranges from 90 dB down to 1 dB, the largest channel root-mean-square difference between the magnitude spectrograms of the peak-normalised dense and sparse renderings; the printed error is zero if every spectral bin of the impulse is above the threshold or has no power.", "quantifier": "all signals, impulse responses, channel counts, power-of-two spectrogram sizes, sample rates and numbers of protected bins", "why_tests_cant": "The values depend on every sample of both files; a check of some files does not show which samples enter the analysis, nor that a printed zero is exact.", "anchors": ["extra/plugin/src/ui/BenchmarkTab.cpp:79-92", "extra/plugin/src/ui/BenchmarkTab.cpp:175-200", "extra/plugin/src/ui/BenchmarkTab.cpp:472-526", "src/neo/fft/stft.hpp:40-126", "extra/plugin/src/dsp/DenseConvolution.cpp:110-186"]}
{"id": "C95", "title": "Element-wise algorithms on overlapping views", "statement": "For operands that are views of one memory, copy, add, multiply and multiply_add (scalar, vectorised and split-complex) give the result of separate operands whenever no input element is overwritten in an iteration before the one that reads it; in particular the output may be one of the inputs, whole planes being used in any role, and contiguous data may be moved to lower addresses in place, as the sliding window of overlap_save does. The vectorised versions agree with the scalar loops in these cases.", "quantifier": "all memories, element types, view offsets, strides and sizes (below 2^31 for int loops) and batch sizes", "why_tests_cant": "Whether an overlap is harmful depends on offsets, strides and batch size; the tests use separate buffers or identical ones.", "anchors": ["src/neo/algorithm/copy.hpp:18-34", "src/neo/algorithm/backend/linalg_binary_op.hpp:13-22", "src/neo/algorithm/multiply_add.hpp:27-69", "src/neo/algorithm/multiply_add.hpp:197-301", "src/neo/algorithm/multiply_add.hpp:328-368", "src/neo/convolution/overlap_save.hpp:37-50"]}
{"id": "C96", "title": "In IEEE arithmetic the partitioned convolvers stay finite and accurate as long as (2B)^2 times input times filter does not overflow", "statement": "In an IEEE 754 binary format with overflow to infinity and gradual underflow, partition an impulse response with uniform_partition(h, B), B = 2^a, load it into a fresh upols_convolver or upola_convolver, and feed blocks of samples of magnitude at most X. Let L bound the sum of |h_i| of every channel plus an underflow allowance eta for every bin, and let Gamma be the growth of the rounding errors (with correctly rounded twiddle tables Gamma <= 1 + 2(27(a+1)+2N+7)u for N partitions). If Gamma*2B*X, Gamma*L and Gamma*(2B)^2*X*L are below the overflow threshold, then for any number of blocks no output sample is infinite or NaN, and every sample is within (Gamma-1)*2B*X*L of the exact convolution for overlap-save, and within (Gamma(1+u)-1)*2*2B*X*L for overlap-add. Subnormal numbers may occur anywhere. The condition on (2B)^2*X*L is about intermediate results: in every format there are a filter (the unit impulse) and an input of a quarter of the threshold whose exact output is finite and for which both convolvers return an infinity, because the inverse transform is scaled only afterwards.", "quantifier": "For all IEEE formats, all block sizes 2^a with 1 <= a <= 26, all impulse responses and channels, all streams of any number of blocks, and all tables with a given accuracy.", "why_tests_cant": "The error bounds tested by comparing with a tolerance say nothing about overflow of intermediate results or underflow, which depend on the largest possible signals and filters; these cannot be enumerated.", "anchors": ["src/neo/convolution/uniform_partition.hpp:11-26", "src/neo/convolution/uniform_partitioned_convolver.hpp:16-65", "src/neo/convolution/overlap_add.hpp:20-107", "src/neo/convolution/overlap_save.hpp:20-112", "src/neo/convolution/dense_convolver.hpp:20-24", "src/neo/fft/stft.hpp", "src/neo/fft/fallback/fallback_rfft_plan.hpp:14-61", "src/neo/complex/scalar_complex.hpp:35-57", "src/neo/fft/twiddle.hpp:17-52"]}
{"id": "C97", "title": "The jobs of the benchmark tab run in order, undisturbed, and not beyond the life of the tab", "statement": "However the message thread (loading files, changing settings, clicking Render, closing the editor), the host's thread (prepareToPlay) and the worker thread interleave: the jobs start in the order of the clicks and, for each click, in the order of the engine list, none is lost, repeated or stuck while the tab is open, and a click with no signal loaded starts nothing; no two threads access a member at the same time with one of them assigning it; every value a job reads is the one the tab held at the click that asked for the job; and neither jobs nor the callbacks they post access the tab after its destruction.", "quantifier": "For all executions: any number of clicks, loads, settings, prepareToPlay calls and callbacks, any interleaving of the accesses of the three threads, and closing at any moment.", "why_tests_cant": "Data races and use after destruction depend on the interleaving of threads; a test run sees one interleaving, and a race need not have visible effects.", "anchors": ["extra/plugin/src/ui/BenchmarkTab.hpp:42-102", "extra/plugin/src/ui/BenchmarkTab.cpp:96-200", "extra/plugin/src/ui/BenchmarkTab.cpp:222-314", "extra/plugin/src/ui/BenchmarkTab.cpp:360-524", "extra/plugin/src/PluginProcessor.cpp:47-58"]}
{"id": "C98", "title": "A sparse convolver differs from the dense one by no more than the dropped coefficients allow", "statement": "If every coefficient that the predicate rejects in partition s has magnitude at most tau_s, then for every input the sparse and the dense partitioned convolver (overlap-add and overlap-save) both run without a fault and the energy of the difference of their outputs over the whole run is at most 2 (sum of tau_s)^2 times the energy of the input. The same bound holds for two dense filters whose coefficients differ by at most tau_s, and for the output itself when tau_s bounds the coefficients. Consequently the difference between a channel rendered by the plugin's sparse_convolve and the exact convolution with the normalised impulse is bounded by the bins it drops, each of which (apart from an unprotected DC bin) lies at least bonus - threshold decibel below the strongest bin.", "quantifier": "For all filter matrices of 2^a+1 bins (1 <= a <= 26), predicates, bounds tau, numbers of partitions, lists of input blocks; for the renderer all signals, impulses, block sizes, thresholds, rates and numbers of protected bins.", "why_tests_cant": "The bound is on the worst input among all inputs of all lengths; the repository's quality test measures the error of a few recordings.", "anchors": ["src/neo/convolution/sparse_filter.hpp:12-40", "src/neo/convolution/sparse_convolver.hpp:10-24", "src/neo/convolution/uniform_partitioned_convolver.hpp", "src/neo/container/csr_matrix.hpp", "extra/plugin/src/dsp/DenseConvolution.cpp: sparse_convolve"]}
{"id": "C99", "title": "The IPP cosine plans are orthonormal, undo each other and are not a drop-in for the fallback plan", "statement": "Given the documented behaviour of the IPP functions (orthonormal transforms, non-positive lengths rejected), in every state reachable by successful calls intel_ipp_dct2_plan leaves the orthonormal DCT-II and intel_ipp_dct3_plan the orthonormal DCT-III of a vector of 2^order samples; the two plans of one order undo each other exactly, in both orders; both preserve the energy. On the same vector the bins of intel_ipp_dct2_plan are those of fallback_dct2_plan times 1/(2 sqrt N) (bin 0) or 1/sqrt(2N) (others), so the two outputs are equal exactly when the vector is zero. A plan can be constructed exactly if order < 31 and IPP accepts the length; orders 31 to 63 throw because the length is narrowed to int, orders from 64 on shift out of range. Other vector lengths trip an assertion.", "quantifier": "For all libraries meeting the contract, orders, directions, real vectors and sequences of earlier calls (comparison with the fallback plan: 1 <= order <= 27, the orders of C18).", "why_tests_cant": "No test of the repository runs the IPP cosine plans; an order of 31 or more needs more memory than a test machine has, and the comparison is over all vectors.", "anchors": ["src/neo/fft/backend/ipp.hpp:93-112,494-583", "src/neo/fft/dct.hpp"]}
{"id": "C100", "title": "Where infinities and NaN go in the transforms", "statement": "In IEEE arithmetic of any binary format, with any twiddle tables, both directions and every kernel of the default complex transform: an infinity or NaN in the real part of one sample leaves no finite real part in the whole result, and likewise for imaginary parts; in a sample other than 0 and N/2 either part leaves nothing finite at all; a NaN leaves NaN. At the samples 0 and N/2 the other part of the result does not depend on the spoiled part, bit for bit. The real transform with one infinite or NaN sample returns no finite real part, and, unless it is sample 0 or N/2, no finite imaginary part; the inverse real transform with an infinite or NaN bin returns no finite sample, except that the imaginary parts of the bins 0 and N/2 are ignored, bit for bit.", "quantifier": "For all formats, twiddle tables, orders 1 to 27 (kernel v4: from 2), directions, kernels, inputs, and states of the scratch buffer of the real transform.", "why_tests_cant": "No test feeds infinities or NaN to a transform; the claim is over all positions, all other samples and all formats.", "anchors": ["src/neo/fft/reference/c2c_dit2_plan.hpp", "src/neo/fft/reference/kernel/c2c_dit2.hpp", "src/neo/fft/fallback/fallback_rfft_plan.hpp", "src/neo/complex/scalar_complex.hpp:35-57"]}
{"id": "C101", "title": "std::complex and neo::scalar_complex give the same results", "statement": "The library's default complex type is std::complex, whose product recovers infinities (C11 Annex G) where neo::scalar_complex returns NaN. In IEEE arithmetic of any binary format, with any tables, the default complex transform (every kernel, both directions), the real transform and its inverse, uniform_partition, upola_convolver and upols_convolver give the same numbers with both types wherever a result is finite; where they differ, both results are infinite or NaN in every part. Hence a run without infinities and NaN in the output is identical in both types, the error bounds of C96 hold for std::complex as they stand, and an infinity or NaN in the input or the filter spoils the same output blocks (C93, C100). The difference is real: a transform of four points gives inf + i NaN with one type and NaN + i NaN with the other.", "quantifier": "For all formats, twiddle tables, orders 1 to 27 (kernel v4: from 2), directions, kernels, inputs, filters with one or more partitions, impulse responses and sequences of blocks, infinities and NaN included.", "why_tests_cant": "The tests use one type at a time on a few finite signals; the claim is over all inputs, formats and lengths.", "anchors": ["src/neo/fft/fallback/fallback_rfft_plan.hpp:14", "src/neo/fft/rfft.hpp:17-21", "src/neo/fft/stft.hpp:40", "src/neo/complex/scalar_complex.hpp:35-57", "src/neo/fft/reference/kernel/c2c_dit2.hpp", "src/neo/algorithm/multiply_add.hpp:280-300"]}
{"id": "C102", "title": "What a sparse convolver skips it does not read, in any arithmetic", "statement": "In any arithmetic, rounded or not, an output block of sparse_upola_convolver and sparse_upols_convolver depends, bit for bit, only on the coefficients that the predicate keeps and on the input blocks that meet a kept coefficient: rejected coefficients and input blocks facing only rejected ones have no influence, not even if they are infinite or NaN. With a predicate that keeps everything the output is that of the dense convolver bit for bit. In IEEE arithmetic an infinity or NaN in input block i leaves no finite sample in the output blocks i+j and i+j+1 for every partition j with a kept coefficient, a NaN makes them NaN, and a kept non-finite coefficient leaves no finite sample anywhere; if the rest of the stream is harmless, exactly these blocks contain a non-finite sample. Wherever the dense convolver loaded with the thresholded filter returns a finite sample, the sparse one returns the same sample; the converse is false, since the dense one multiplies infinities by the zeros. Under the hypotheses of C96 every output sample of the sparse convolvers is finite and within the bound of the dense convolver of the exact result with the same coefficients kept.", "quantifier": "For all arithmetics (resp. IEEE formats, twiddle tables), block sizes 2^1 to 2^26, filters with one or more partitions, predicates, sequences of blocks, infinities and NaN included.", "why_tests_cant": "Tests use the always-true predicate and one finite signal; no test compares bits, rejected coefficients or non-finite samples.", "anchors": ["src/neo/convolution/sparse_convolver.hpp", "src/neo/convolution/sparse_filter.hpp", "src/neo/container/csr_matrix.hpp", "src/neo/algorithm/multiply_add.hpp", "src/neo/convolution/uniform_partitioned_convolver.hpp"]}
{"id": "C103", "title": "Split-complex code gives the bits of the interleaved code, infinities and NaN included", "statement": "In any arithmetic whose complex sums and products are formed from the parts by the textbook formulas, rounded or not, split_upola_convolver and split_upols_convolver return for every filter matrix and every list of blocks, of any lengths, bit for bit what upola_convolver and upols_convolver return, or the same fault; fallback_split_fft_plan forward on the two planes of a buffer gives the planes of what the interleaved plan gives; backward it is the forward transform of the exchanged planes, exchanged. In IEEE arithmetic of any binary format with conjugate tables, which correctly rounded cosines and sines always give, the split plan agrees with the interleaved plan bit for bit in both directions, infinities and NaN included. Against interleaved convolvers with std::complex, whose product recovers infinities, the split convolvers agree in every sample that is finite in one of the two.", "quantifier": "For all arithmetics (resp. IEEE formats, tables), orders 0 to 27 (backward in IEEE arithmetic: 1 to 27), buffers and filters of any content, lists of blocks of any lengths; against std::complex block sizes 2^1 to 2^26.", "why_tests_cant": "Tests compare split and interleaved results within a tolerance on a few finite signals.", "anchors": ["src/neo/fft/fallback/fallback_split_fft_plan.hpp", "src/neo/convolution/dense_convolver.hpp", "src/neo/convolution/dense_filter.hpp", "src/neo/algorithm/multiply_add.hpp", "src/neo/convolution/uniform_partitioned_convolver.hpp"]}
{"id": "C104", "title": "The one-shot convolutions in IEEE arithmetic: accuracy, infinities and NaN, order of the operands", "statement": "In IEEE arithmetic of any binary format: (a) direct_convolve of finite operands: every output sample whose sum of magnitudes of products, with an underflow allowance, stays below the overflow threshold after error growth is finite and within ((1+u)^(m+1)-1) times that sum of the exact value, m the length of the shorter operand, whatever happens in the other samples; (b) fft_convolve of finite operands: if the sums of magnitudes and 2^b times their product stay below the threshold after error growth, all samples are finite and within (growth-1) times the product of the sums of the exact values, with correctly rounded tables at most 2(27b+7)u times it for transforms of 2^b points; (c) an infinite or NaN sample x_i makes the output samples i..i+l-1 of direct_convolve non-finite and has no influence on the others, bit for bit, whereas in fft_convolve it leaves no finite sample at all; (d) fft_convolve gives the same samples with std::complex as with neo::scalar_complex wherever they are finite; (e) in any arithmetic, each call of one fft_convolver object gives what a fresh one gives, whatever the earlier calls were fed; (f) exchanging the operands does not change a bit of fft_convolve, nor of direct_convolve if the lengths differ; for equal lengths it can.", "quantifier": "For all binary formats with at least the exponent range and precision of Fmt.Ieee, operands (fft_convolve: at least 2 samples each, n+l-1 <= 2^27), tables (accuracy: of bounded error), sequences of calls and contents of output buffers.", "why_tests_cant": "Tests compare a few finite signals within a tolerance; no test looks at overflow, infinities, NaN, bits or repeated calls after NaN.", "anchors": ["src/neo/convolution/fft_convolver.hpp:20-93", "src/neo/convolution/direct_convolve.hpp:16-72", "src/neo/fft/fallback/fallback_rfft_plan.hpp"]}
{"id": "C105", "title": "The complex transforms and round trips in IEEE arithmetic: finiteness, accuracy, overflow", "statement": "In IEEE arithmetic of any binary format, with twiddle tables of error at most e: let S be the sum of the magnitudes of the 2^b input values plus an underflow allowance of one smallest normal number per value, and g = ((1+e)(1+5u)(1+2u))^b. (a) If g*S is below the overflow threshold, the default complex transform in either direction and with every kernel has finite bins only, each within (g-1)S of the discrete Fourier transform. (b) If g^2*2^b*S is below the threshold, transforming there and back with one plan gives finite values, each within (g^2-1)S of the value it comes from after division by 2^b; the same holds for rfft followed by irfft whatever the plan's buffer and the output ranges held before, and (a), (b) hold with std::complex. (c) With correctly rounded tables g <= 1+18bu and g^2 <= 1+36bu while 36bu <= 1. (d) A bound on the samples instead of their sum is not enough: two samples of half the overflow threshold make a bin infinite.", "quantifier": "For all binary formats with at least the exponent range and precision of Fmt.Ieee, orders 1 to 27 (kernel v4: from 2), kernels, directions, finite inputs meeting the bound, tables of bounded error; nothing is assumed of intermediate results.", "why_tests_cant": "Tests compare a few transforms of moderate signals within a tolerance; none goes near the ends of the exponent range, and no finite set of signals shows that no intermediate overflow or underflow spoils the result.", "anchors": ["src/neo/fft/fft.hpp", "src/neo/fft/fallback/fallback_rfft_plan.hpp", "src/neo/fft/reference/c2c_dit2_plan.hpp", "src/neo/fft/reference/kernel/c2c_dit2.hpp", "src/neo/complex/scalar_complex.hpp"]}
{"id": "C106", "title": "Exact symmetries in IEEE arithmetic: polarity, silence, real bins, order of the operands", "statement": "In IEEE arithmetic of any binary format, with neo::scalar_complex and with std::complex (whose product recovers infinities): (a) for every table and every input, infinities and NaN included, negating the input negates the output exactly in the default complex transform with every kernel, in rfft and irfft of the default real plan, in the uniformly partitioned overlap-add and overlap-save convolvers and in fft_convolve; in the convolvers and fft_convolve so does negating the filter. (b) With finite tables and a finite filter of N partitions, an output block of either convolver is exactly zero once the last N+1 input blocks are zero, whatever came before. (c) If the first table entry is 1, the first and last bins of rfft have an imaginary part that is exactly zero or not finite. (d) fft_convolve gives the same result with its operands exchanged.", "quantifier": "For all binary formats, orders 1 to 27 (kernel v4: from 2), block sizes 2 to 2^26, filters, inputs, and contents of the plan's buffer and of the outputs.", "why_tests_cant": "Tests compare within tolerances, so they cannot tell an exact zero or an exact negation from one up to rounding errors, and they contain no signal that falls silent after an infinity or NaN.", "anchors": ["src/neo/fft/fft.hpp", "src/neo/fft/fallback/fallback_rfft_plan.hpp", "src/neo/fft/reference/c2c_dit2_plan.hpp", "src/neo/convolution/uniform_partitioned_convolver.hpp", "src/neo/convolution/overlap_add.hpp", "src/neo/convolution/overlap_save.hpp", "src/neo/convolution/fft_convolver.hpp", "src/neo/complex/scalar_complex.hpp"]}
{"id": "C107", "title": "Compressed spectra in IEEE arithmetic: accuracy, lossless re-insertion, order, undefined conversions, products", "statement": "In IEEE arithmetic, for 8- and 16-bit storage and samples in a binary format of at least float's precision with rounding after every operation, u being the unit roundoff: (a) inserting into compressed_fdl a spectrum of as many bins as the delay line has, with parts in [-1,1], succeeds, every part reads back as a finite number in [-1,1] within 1/(2 max) + 3u of the original, and the other rows read as before; in float and double 1, -1 and 0 read back exactly. (b) Every stored integer fits its type after any sequence of insertions, and a row that is read and inserted again, at the same or another row, arrives as exactly the same integers. (c) Storing and reading preserve order and sign. (d) A part that is NaN, infinite or of magnitude 2^63 and more makes the insertion convert a float without an integer value, which is unspecified. (e) The error bound 1/(2 max) of exact arithmetic does not hold in float. (f) Element-wise products through compressed_accessor of two real (complex) signals with parts in [-1,1] are finite and within 1/max + 7u (2/max + 16u per part) of the exact products.", "quantifier": "For all numbers of rows and bins below 2^32, all row contents, all indices of existing rows, all sample values in the stated ranges, all signal lengths, all binary formats with at least 24 bits and the corresponding exponent range.", "why_tests_cant": "The tests insert a handful of values and compare with tolerances of 0.1 and 0.001; they cannot show that no float near a rounding tie breaks the bound, nor that repeated reading and storing never drifts.", "anchors": ["src/neo/convolution/compressed_fdl.hpp:36-48", "src/neo/container/compressed_accessor.hpp:25-46", "extra/benchmark/src/fixed_point.cpp:252-307"]}
{"id": "C108", "title": "Statistics and energy normalisation in IEEE arithmetic: finite and accurate within the range of the format", "statement": "In IEEE arithmetic of any binary format, u being the unit roundoff and a the smallest normal number: (a) the mean of n >= 1 finite samples with 2(1+u)^n*S below the overflow threshold, S being the sum of the magnitudes plus n*a, is finite and within ((1+u)^(n+1)/(1-u) - 1)*S/n of the exact mean; (b) for n >= 2 samples of magnitude at most K, K >= 1, with (1+u)^n <= 2 and 300*n*K^2 below the overflow threshold, the variance is finite, not negative and within a relative error of the exact variance plus the square of the error of the computed mean, and the standard deviation is its rounded root; (c) the mean squared error of real signals of equal length is finite, not negative and accurate under the corresponding condition, its root is the rounded root, and the mean squared error of a vector with itself is exactly zero if all samples are finite and there is at least one, and NaN otherwise; (d) normalize_energy of samples whose energy E is a normal number, is summed with a relative error of at most one half and does not overflow, divides every sample by the root of E up to a relative error plus u*a, and the result has norm one up to the same error; in float, for up to 2^20 samples with energy between 2^-60 and 2^100 the norm differs from one by at most (n+6)/2^23; (e) normalize_impulse of a matrix whose channels are silent or have energy in that range multiplies all channels with one positive factor, one rounding per sample, leaves no channel with a norm above one up to rounding, and unless some channel is silent leaves one with norm one up to rounding; elements outside the view are untouched. (a) to (d) hold for vectors and for rank-2 views.", "quantifier": "For all binary formats with at least the exponent range and precision of Fmt.Ieee ((d), (e): largest exponent at least 8), numbers of samples and values in the stated ranges, valid views (strides, row- or column-major order), channel counts of at least one.", "why_tests_cant": "Tests normalise a few short signals of moderate level and compare within tolerances; they cannot show that no intermediate square, sum, root or reciprocal overflows or loses the result to underflow, nor that the error stays within a bound for every length.", "anchors": ["src/neo/algorithm/mean.hpp:18-50", "src/neo/algorithm/variance.hpp:16-44", "src/neo/algorithm/standard_deviation.hpp:16-23", "src/neo/algorithm/mean_squared_error.hpp:16-55", "src/neo/algorithm/root_mean_squared_error.hpp:18-23", "src/neo/algorithm/normalize_energy.hpp:17-50", "src/neo/convolution/normalize_impulse.hpp:11-33"]}
{"id": "C109", "title": "Conversions between fixed point and floating point, and products of converted noise, in IEEE arithmetic", "statement": "For 8- and 16-bit storage and at most 30 fractional bits F: (a) converting a floating-point number of any format rounds it to the nearest float r; if r*2^F, cut off, is an int32_t, the result is r cut off toward zero, or the nearer end of the range if r is out of range; otherwise, and for infinities and NaN, the conversion is undefined; (b) the conversion is monotone; (c) a number in [-1, 1] converts (F less than the width) with an error of at most 2^-F if it is a float, and at most 2^-F + 2^-25 in general; a double is not always cut off toward zero, since the rounding to float may move it up to the next step; (d) converting to float or double, and 8-bit values to half precision, is exact and converts back to the same value; a 16-bit value converts to the nearest half-precision number, which may convert back to another value; (e) the benchmark fixed_point_mul, for q7, q15 and every other real type with F less than the width, runs without fault and writes products within 3*2^-F of the exact products of the drawn numbers, except with SSE4.1, where it holds for q15 unless both factors are -1, and where q7 products of opposite sign are wrong; (f) the benchmark float16_mul_bench writes every element with the product of the two operands, each rounded to half precision, rounded once to half precision, within 3*2^-11 of the exact product for numbers in [-1, 1], and stays in its buffers. With 32-bit storage and 31 fractional bits the scale is negative and the largest value reads as -1; with 30, the largest value reads as 2 and does not convert back.", "quantifier": "For all values of any floating-point format, infinities and NaN included; all stored values; storage widths 8 and 16, all numbers of fractional bits up to 30 (in (c) and (e) less than the width); all instruction sets; all vector sizes below 2^32 in (e), all multiples of 8 below 2^31 in (f).", "why_tests_cant": "A test converts a few values, all of them floats of moderate size. It cannot cover every double, in particular those that the intermediate float rounds across a step, nor the boundary beyond which the conversion to an integer is undefined; the benchmarks check no results at all.", "anchors": ["src/neo/fixed_point/fixed_point.hpp:40-56", "src/neo/fixed_point/fixed_point.hpp:113-123", "src/neo/fixed_point/algorithm.hpp:71-104", "extra/benchmark/src/fixed_point.cpp:309-347", "extra/benchmark/src/fixed_point.cpp:350-385"]}
{"id": "C110", "title": "Finiteness and accuracy of the Stockham plans of radix 3, 4, 5 and 8 in IEEE arithmetic", "statement": "In IEEE 754 arithmetic of any format, with neo::scalar_complex or std::complex, twiddles accurate to e and real constants (sines and square roots) accurate to d at most 1/10, the Stockham plans of radix r = 3, 4, 5 and 8 of order p behave as follows. Let N = r^p, S the sum of the magnitudes of the inputs plus N times the smallest normal number, a and m the numbers of sums and products on the longest path through a butterfly (3 and 3, 2 and 2, 5 and 4, 4 and 3), u the unit roundoff and G = (1 + 2((1 + 2u)^a ((1 + e + 3d + u)(1 + 5u))^m - 1))^p. (a) If 2 G S is below the overflow threshold, the transform runs without fault, every result is finite, and every result is within (G - 1) S of the Fourier transform, in both directions and whatever the work buffer holds; overflow and underflow of intermediate results are accounted for. (b) If 2 G^2 N (S + the smallest normal number) is below the threshold, transforming the result in the opposite direction with the work buffer the first transform left is finite too, and divided by N it is within (G^2 - 1)(S + the smallest normal number) of the input. (c) Correctly rounded constants are accurate to u, correctly rounded cosines and sines give twiddles accurate to 2u, and then G is at most 1 + 4 p (2a + 11m) u as long as that is at most 2; for radix 5 and float, below 1 + 2e-4 for all sizes below 2^32.", "quantifier": "For all formats with at least 3 bits of precision and 3 of exponent range, all orders with r^p < 2^32, both directions, all finite inputs, all contents of the work buffer.", "why_tests_cant": "A test transforms a few sizes and compares with a tolerance found by trial. It cannot show that no input of admissible size overflows in an intermediate sum of a butterfly, nor that the error of every input stays within a bound that grows only linearly with the order.", "anchors": ["src/neo/fft/reference/c2c_stockham_dif3_plan.hpp:39-80", "src/neo/fft/reference/c2c_stockham_dif4_plan.hpp:39-83", "src/neo/fft/reference/c2c_stockham_dif5_plan.hpp:39-98", "src/neo/fft/reference/c2c_stockham_dif8_plan.hpp:39-112", "src/neo/complex/scalar_complex.hpp:21-72"]}
{"id": "C111", "title": "Order, range and accuracy of windows, bin frequencies, units and comparisons in IEEE arithmetic", "statement": "In IEEE 754 arithmetic (rounding to nearest, infinities and NaN, the functions std::cos, std::log10 and std::pow any functions that are accurate or do not decrease): (a) generate_window of a rectangular, Hann or Hamming window of any size n of at least 2 gives finite values in [0, 1], although the constants 0.54, 0.46 and pi are rounded twice (to double, then to the format) and the sum of the rounded constants may exceed one; every value is within k + 29u of the exact window, where k is the error of std::cos; the window is symmetric up to twice that; the Hann window starts with 0; the Hann and Hamming windows of size one are NaN. (b) rfftfreq is 0 at bin 0, does not decrease with the bin, even when it overflows, is within 8u, relatively, of i / (n d), and the vector form writes all bins. (c) amplitude_to_db is never below its floor, does not decrease with the gain, gives the floor for gains at most zero and for NaN, and is within 20k + 20uL of max(floor, 20 log10 gain) for logarithms of magnitude at most L and error k. (d) hertz_to_mel does not decrease on frequencies that are not negative, mel_to_hertz does not decrease, and mel_frequencies writes values that do not decrease, the first being fmin converted there and back. (e) allclose gives the same result with its arguments exchanged, for real numbers and neo::scalar_complex; allclose(x, x) is true exactly if x has neither infinities nor NaN; two finite numbers within the tolerance are always close, and close numbers differ by at most the tolerance divided by 1 - u; with tolerance 0 close numbers are equal. Not so for neo::scalar_complex: if the squares of the parts underflow, different values are close with tolerance 0.", "quantifier": "For all IEEE formats with at least 6 bits of precision (windows: at most 50 bits, or double), all sizes up to a sixteenth of the overflow threshold, all sample rates, gains, floors, frequencies, lists and tolerances; order claims include infinities.", "why_tests_cant": "A test compares some windows and frequencies with a tolerance. It cannot show that no size gives a window value above one by a unit in the last place, that order is kept for every pair of arguments including those that overflow, nor how far every value is from the exact one.", "anchors": ["src/neo/math/windowing.hpp:15-75", "src/neo/fft/rfftfreq.hpp:11-29", "src/neo/unit/decibel.hpp:14-25", "src/neo/unit/mel.hpp:13-45", "src/neo/algorithm/allclose.hpp:18-24", "src/neo/complex/scalar_complex.hpp:137-153"]}
{"id": "C112", "title": "Finiteness and accuracy of the in-place radix-3 and radix-5 plans in IEEE arithmetic", "statement": "c2c_dif3_plan and c2c_dif5_plan in IEEE 754 arithmetic (rounding to nearest, infinities and NaN), with neo::scalar_complex and with std::complex, for all orders that the loops can run (up to 18 and 12), both directions and twiddles finite and accurate to e: (a) with G = ((1+e)(1+5u))^(N-1+2b) (1+2u)^((R-1)b), N = R^b, u the unit roundoff, if G and G S stay below the overflow threshold, where S is the sum of the magnitudes plus a small allowance for underflow, both parts of all bins are finite and every bin is within (G-1) S of the Fourier transform, although the twiddles of a stage are products computed in the loop; (b) transforming back gives finite values that, divided by N, are within (G^2-1) S of the input; (c) with correctly rounded twiddles G is at most 1 + 2(7N + 2(R+7)b)u as long as this is at most 2, below 1 + 1e-6 in double for every order.", "quantifier": "For all formats with at least 3 bits of precision and 3 of exponent range, all orders up to 18 (radix 3) and 12 (radix 5), both directions, all finite inputs, both complex types.", "why_tests_cant": "A test compares small transforms with a tolerance. The powers of the twiddle are computed by repeated multiplication, so errors grow with the size and show only for sizes no test uses; and no test can show that no input of admissible size overflows on the way.", "anchors": ["src/neo/fft/reference/c2c_dif3_plan.hpp:36-80", "src/neo/fft/reference/c2c_dif5_plan.hpp:36-91", "src/neo/complex/scalar_complex.hpp:21-72", "src/neo/fft/twiddle.hpp:15-30"]}
{"id": "C113", "title": "The twiddles and constants as the code computes them in IEEE arithmetic, and the transforms built on them", "statement": "twiddle<Complex>(size, index, dir) in IEEE 754 arithmetic, with 2 pi computed in double and converted, the angle rounded after each of the products and the quotient, and std::cos and std::sin any functions accurate to k on arguments of the format: (a) for every size with 16 times the size at most the overflow threshold and every index up to the size, both parts are finite and at most one in magnitude, and the twiddle is within 44u + 3k/2 of exp(-+2 pi i index/size), u being the unit roundoff; at index 0 it is exactly one; (b) if the cosine is even and the sine odd, the twiddles of the two directions are exactly conjugate, also where values overflow; (c) the constants sin(pi/3), sqrt(5)/4, sin(pi/5), sin(2 pi/5) and sqrt(2)/2 of the Stockham plans, computed in double and converted, are within 6u; (d) hence, with k at most u and tables as the code fills them: the radix-2 plan of order b is finite and within 106 b u S of the Fourier transform for every kernel, if 106 b u <= 1 and 2S is below the overflow threshold (S: sum of the magnitudes plus an allowance for underflow), and within 212 b u S after there and back with std::complex; the Stockham plans of radix 3, 4, 5, 8 of order p are within 4 p (2a + 70m) u S, with a sums and m products on the longest path; the in-place plans of radix R = 3, 5 of order b are within 2 (51 R^b + 2 (R + 51) b) u S.", "quantifier": "For all IEEE formats with 6 to 53 bits of precision, all sizes up to a sixteenth of the overflow threshold, all indices, both directions, all library functions cos and sin of the stated accuracy; (d) for all finite inputs and all orders that the stated bounds and the loops of the plans allow.", "why_tests_cant": "A test compares some twiddles with a tolerance, for one library and a few sizes. It cannot show for every size and index how the errors of pi, of the angle and of the library add up, nor connect them with the error of every transform of every input.", "anchors": ["src/neo/fft/twiddle.hpp:15-58", "src/neo/math/polar.hpp:20-32", "src/neo/fft/reference/c2c_stockham_dif3_plan.hpp:44-46", "src/neo/fft/reference/c2c_stockham_dif5_plan.hpp:44-50", "src/neo/fft/reference/c2c_stockham_dif8_plan.hpp:44-47"]}
{"id": "C114", "title": "The naive transform dft(in, out, dir) in IEEE arithmetic: finite and accurate, and where its angle overflows", "statement": "dft(in, out, dir) for std::complex in IEEE 754 arithmetic, with the angle sign * two_pi * n * k / size rounded after every operation, the products of Annex G, and std::cos and std::sin any functions accurate to c on arguments of the format: (a) for every size N with 16 N^2 at most the overflow threshold, every factor is finite, has parts at most one in magnitude, and is within 58 (n k / N) u + 3c/2 of exp(-+2 pi i n k / N), u being the unit roundoff (the angle is not reduced, so this grows with n k / N); (b) if (1 + 58 N u + 3c/2)(1 + 5u)(1 + 2u)^N S is below the overflow threshold (S: sum of the magnitudes of the inputs plus an allowance for underflow), every result is finite and within ((1 + 58 N u + 3c/2)(1 + 5u)(1 + 2u)^N - 1) S of the Fourier sum; with c at most u, 134 N u <= 1 and 2S below the threshold, within 134 N u S; (c) if 2^(2j+2) reaches the overflow threshold, every bin k >= 2^j of every transform whose last sample is finite is NaN, because the product of the angle overflows before the division: in half precision every bin from 128 on; (d) buffers of different lengths trip the assertion.", "quantifier": "For all IEEE formats with 6 to 53 bits of precision, both directions, all library functions cos and sin of the stated accuracy, all finite inputs and all sizes that the stated bounds allow; (c) for all sizes, and all inputs whose last sample is finite.", "why_tests_cant": "The test transforms random signals of 4, 16 and 21 points with float and double. It cannot show how the error grows with the size for every input, and has no size at which the angle of a narrow format overflows.", "anchors": ["src/neo/fft/dft.hpp:34-57", "src/neo/math/polar.hpp:20-32"]}
{"id": "C115", "title": "The arbitrary-length plan (Bluestein) in IEEE arithmetic: usable any number of times, finite and accurate", "statement": "fallback_dft_plan for std::complex in IEEE 754 arithmetic, rounding after every operation, with the products of Annex G and std::cos and std::sin any functions accurate to c on arguments of the format: (a) for every size n with 16 n at most the overflow threshold every entry of the chirp, in both directions, is finite, has parts at most one in magnitude and is within 44 u + 3c/2 of exp(-+pi i j^2 / n), u being the unit roundoff; the error does not grow with j because the squares are reduced modulo 2n; (b) for n >= 1 and 2n + 1 <= 2^27 the plan can be constructed, every call with n numbers (finite or not) succeeds, its results do not depend on earlier calls, and a buffer of any other length trips the assertion; (c) with e = 44 u + 3c/2, m = 2^b the least power of two at least 2n + 1, G = (1+e)^3 ((1+e)(1+5u)(1+2u))^(3b) (1+5u)^4 and S the sum of the magnitudes of the inputs plus an allowance for underflow: if G <= 2 and G m^2 S is below the overflow threshold, every result of every call on a new or used plan is finite and within (G - 1) m S of the Fourier sum; with c at most u, 636 b u <= 1 and 2 m^2 S below the threshold, within 636 b u m S, and m <= 4n.", "quantifier": "For all IEEE formats with 6 to 53 bits of precision, both directions, all library functions cos and sin of the stated accuracy, all sizes and all finite inputs that the stated bounds allow, and all sequences of earlier calls.", "why_tests_cant": "The test transforms forwards and backwards one random signal per size with float and double and compares with a loose tolerance. It cannot show how the error grows with the size for every input, nor that earlier calls leave no trace.", "anchors": ["src/neo/fft/fallback/fallback_dft_plan.hpp:23-96", "src/neo/fft/reference/c2c_dit2_plan.hpp", "src/neo/fft/fft.hpp", "src/neo/math/polar.hpp:20-32", "src/neo/algorithm/scale.hpp:14-28"]}
{"id": "C116", "title": "The type-2 DCT plan in IEEE arithmetic: usable any number of times, finite and accurate", "statement": "fallback_dct2_plan in IEEE 754 arithmetic, rounding after every operation, with the products of Annex G, std::exp(complex) = polar(exp(re), im), exp(0) = 1, and std::cos and std::sin any functions accurate to c on arguments of the format: (a) for every size N with 16 N at most the overflow threshold and every i <= N the factor 2 exp(-pi i I / (2N)) is finite, has parts at most two in magnitude and is within 2 (16 u + 3c/2) of the exact one, u being the unit roundoff; the factor of bin zero is exactly two; (b) for the orders 1 to 27 the plan can be constructed, every call with 2^order numbers (finite or not) succeeds, its results do not depend on earlier calls, and a buffer of any other length trips the assertion; (c) with e = 44 u + 3c/2, G = ((1+e)(1+5u)(1+2u))^order (1 + 16 u + 3c/2)(1+5u) and S the sum of the magnitudes of the inputs plus an allowance for underflow: if 2 G S is below the overflow threshold, every result of every call on a new or used plan is finite and within 2 (G - 1) S of 2 sum_i x_i cos(pi k (2i+1) / (2N)); with c at most u, 150 order u <= 1 and 4 S below the threshold, within 300 order u S.", "quantifier": "For all IEEE formats with 6 to 53 bits of precision, all library functions cos and sin of the stated accuracy, all orders and all finite inputs that the stated bounds allow, and all sequences of earlier calls.", "why_tests_cant": "The test compares one signal of eight samples with precomputed values. It cannot show how the error grows for every input, at which magnitudes results overflow, nor that earlier calls leave no trace.", "anchors": ["src/neo/fft/dct.hpp:23-68", "src/neo/fft/reference/c2c_dit2_plan.hpp", "src/neo/fft/twiddle.hpp:17-29"]}
{"id": "C117", "title": "Convolution with the tables the code itself computes is finite and accurate in IEEE arithmetic, with both complex types", "statement": "In IEEE 754 arithmetic, rounding after every operation, with twiddle tables computed by neo::twiddle from library cosine and sine functions within one unit roundoff u: (a) uniform_partition of an impulse response into N blocks of B = 2^a samples, followed by upols_convolver or upola_convolver over any number of blocks of samples of magnitude at most X >= 1, succeeds; if (159 (a+1) + 2N + 7) u <= 1/2 and 2 * 2B X and 2 (2B)^2 X L are below the overflow threshold, L bounding the sum of the magnitudes of the impulse response plus 2B N times the least normal number, every output sample of both is finite, those of overlap-save within 2 (159 (a+1) + 2N + 7) u * 2B X L and those of overlap-add within 4 (159 (a+1) + 2N + 8) u * 2B X L of the convolution; the bound does not grow with the number of blocks; (b) fft_convolve of two signals of at least two samples with transforms of 2^b points: if (159 b + 7) u <= 1/2 and 2X, 2Y and 2 * 2^b X Y are below the overflow threshold, X and Y bounding the sums of the magnitudes plus 2^b times the least normal number, every sample is finite and within 2 (159 b + 7) u X Y of the convolution; (c) the outputs are the same numbers with neo::scalar_complex and with std::complex.", "quantifier": "For all IEEE formats with 6 to 53 bits of precision, all library functions cos and sin of the stated accuracy, block sizes 2 to 2^26, all impulse responses, all channels, all numbers of blocks and all samples that the stated bounds allow.", "why_tests_cant": "The tests compare short runs with a tolerance, on one machine's cosine and sine. They cannot show a bound that holds for every filter and every length of stream, nor that both complex types give the same numbers.", "anchors": ["src/neo/convolution/uniform_partition.hpp", "src/neo/convolution/uniform_partitioned_convolver.hpp", "src/neo/convolution/fft_convolver.hpp", "src/neo/fft/twiddle.hpp:17-29"]}
{"id": "C118", "title": "The renderer's chain (normalise, partition, convolve, cut) in IEEE arithmetic is finite and accurate for every impulse response with an energy in range", "statement": "One channel of convolve of the command line program in IEEE 754 arithmetic, rounding after every operation: normalize_impulse, uniform_partition with tables from neo::twiddle (library cosine and sine within one unit roundoff u), the signal in blocks of B = 2^a samples with the last one filled up with zeros, upola_convolver or upols_convolver, output cut to the length of the signal. If every channel of the impulse response is silent or has an energy in the range of the format, S is its length and N its number of partitions, the samples of the signal are at most X >= 1, (159 (a+1) + 2N + 7) u <= 1/2, N 2B times the least normal number is at most one, and 2 * 2B X and 6 (2B)^2 X sqrt(S) are below the overflow threshold: there is one positive gain g for all channels such that for every channel and every signal of any length the rendering succeeds, all samples are finite, and they differ from g times the convolution of signal and given impulse response by at most 12 (159 (a+1) + 2N + 9) u 2B X sqrt(S) with overlap-add and 6 (159 (a+1) + 2N + 8) u 2B X sqrt(S) with overlap-save; no bound of the magnitude of the impulse response is needed beyond its energy range. The results are the same numbers with neo::scalar_complex and std::complex. Rendering with the split-complex convolvers gives the same bits as with the interleaved ones, for every impulse response and signal, NaN included. In single precision the bounds hold for blocks of at most 32768 samples, impulse responses of at most 2^20 samples with channel energies zero or between 2^-60 and 2^100, and signals in [-1, 1].", "quantifier": "For all IEEE formats with 6 to 53 bits of precision and exponents of at least 8, all library functions cos and sin of the stated accuracy, block sizes 2 to 2^26, all impulse responses in range, all channels, and all signals of any length within the stated bounds.", "why_tests_cant": "The program is not tested. Listening to or comparing some renderings cannot show that no impulse response in range overflows, that the gain is the same for all channels up to rounding, nor a bound of the error for all signals.", "anchors": ["extra/cli/src/convolver.cpp:26-58", "src/neo/convolution/normalize_impulse.hpp", "src/neo/convolution/uniform_partition.hpp", "src/neo/convolution/uniform_partitioned_convolver.hpp", "src/neo/fft/twiddle.hpp:17-29"]}
{"id": "C119", "title": "The short-time Fourier transform in IEEE arithmetic is finite and accurate frame by frame, and neither calls nor frames influence each other", "statement": "stft and stft_plan with any frame size F, overlap O < F, transform size T >= max(F, 2) and window. (1) In any arithmetic with commutative complex addition, any number of calls of one plan with matrices of any shapes, infinities and NaN included, never fault and each gives what a fresh stft gives: channels times ceil(S/(F-O)) frames times K/2+1 bins, K = 2^b the next power of two of T. (2) In any arithmetic, the bins of frame t of channel c depend only on samples t(F-O) to t(F-O)+F-1 of that channel: a NaN elsewhere changes no bit. (3) In IEEE 754 arithmetic with tables from neo::twiddle (library cosine and sine within one unit roundoff u) and a window with finite values at most one in magnitude and within kappa of an exact window, E = (53 b + 1) u + kappa <= 1/2: every frame whose sum of magnitudes M plus K times the least normal number is below half the overflow threshold has finite coefficients only, each within 2 E (M + K least normal) of the discrete Fourier transform of the zero-padded frame under the exact window, whatever the other frames hold, and the same numbers with neo::scalar_complex and std::complex. (4) For the rectangular, Hann and Hamming windows of the library E = (53 b + 31) u. (5) stft_plan<float>(T) with its default options, 2 <= T <= 2^20 and samples in [-1, 1]: every coefficient is finite and within 2 (53 b + 31)(T + 1) / 2^24.", "quantifier": "For all options as stated up to transforms of 2^27 points, all matrices of samples (any strided view) whose result fits into memory, all IEEE formats with 6 to 50 bits of precision and double precision (for a given window: up to 53 bits), all library functions cos and sin of the stated accuracy.", "why_tests_cant": "The tests check the number of frames and some transforms of small signals. They cannot show that stale buffers, a NaN in another frame or an earlier call never leak into a frame, nor a bound of the error for all signals, windows and sizes.", "anchors": ["src/neo/fft/stft.hpp:21-117", "src/neo/math/windowing.hpp:15-66", "src/neo/fft/twiddle.hpp:17-29"]}
{"id": "C120", "title": "The A-weighting is accurate to a thousandth of a decibel in floating point", "statement": "In every IEEE binary format of 6 to 53 bits whose range includes 2^-39 to 2^40 (float and double), a_weighting of a frequency from 2^-19 Hz to 2^19 Hz is a finite number within 11800 u + 120 kappa decibel of the A-weighting of IEC 61672-1, where u is the unit roundoff and kappa the absolute error of std::log10; with float and kappa at most 2^-19 this is less than 0.001 dB. If the square of the frequency overflows (float: from 2^64 Hz on) the result is NaN, and if it underflows to zero (float: below 2^-75 Hz, 0 included) it is -infinity, although the documented precondition is only that the frequency is positive.", "quantifier": "all formats, all logarithms of the given accuracy, all frequencies in the ranges", "why_tests_cant": "Tests compare a few frequencies with a tolerance; they cannot show a bound on the rounding errors for every frequency, nor the behaviour at every frequency whose square overflows or underflows.", "anchors": ["src/neo/math/a_weighting.hpp:12-35"]}
{"id": "C121", "title": "The mel scale is accurate in floating point, there and back and in tables", "statement": "In IEEE binary formats of at least 12 bits (round trip: 16, tables: 18) and exponents as of float: (a) hertz_to_mel of a frequency h from 0 to 2^19 Hz is within 18165 u + 2595 kappa mels of 2595 log10(1 + h/700); (b) mel_to_hertz of a mel value from -1 to 10000 is within (29 u + 2 lambda)(h + 700) Hz of h = 700 (10^(m/2595) - 1); (c) converting a frequency from 0 to 2^19 Hz to mels and back gives a number within (80 u + 7 kappa + 3 lambda)(h + 700) Hz of it; (d) mel_frequencies with n entries, 2 <= n <= 2^p and n < 2^31, between two limits from 0 to 2^19 Hz writes all entries, entry i within (300 u + 20 kappa + 3 lambda)(h + 700) Hz of the frequency h whose mel value lies i/(n-1) of the way between those of the limits. u is the unit roundoff, kappa the absolute error of std::log10 and lambda the relative error of std::pow(10, x). Nothing overflows.", "quantifier": "all formats, all logarithms and powers of the given accuracy, all frequencies, mel values, table sizes and limits in the ranges", "why_tests_cant": "The test compares a few values and one table with a tolerance; it cannot show that the errors do not add up along a table of any length, nor a bound for every frequency.", "anchors": ["src/neo/unit/mel.hpp:13-45"]}
{"id": "C122", "title": "The weights of the plugin's sparse renderer are accurate in single precision", "statement": "For transform sizes K up to 2^21, at most K/2+1 bins, 0 <= lowBinsToKeep <= bins and sample rates from 8 to 2^19 Hz, the vector of weights of sparse_convolve is made without fault; the first lowBinsToKeep bins have 100 dB, bin 0 has -infinity if it is not one of them, and every other bin i has a finite weight within 0.002 dB of the A-weighting of IEC 61672-1 at its frequency i*rate/K, for every std::log10 of absolute error at most 2^-19.", "quantifier": "all logarithms of the given accuracy, all sizes, numbers of bins and sample rates in the ranges", "why_tests_cant": "The plugin's renderer is not tested; a test could compare some sizes and rates, but not bound the error of the chain of double division, rounding to float, bin frequency and weighting for all of them.", "anchors": ["extra/plugin/src/dsp/DenseConvolution.cpp:141-154", "src/neo/math/a_weighting.hpp:12-35", "src/neo/fft/rfftfreq.hpp:11-18"]}
{"id": "C123", "title": "The plugin's sparse renderer decides on bins in single precision as in exact arithmetic, up to a thousandth of a decibel", "statement": "For a bin with computed gain g >= 0 and a factor s from 2^-60 to 2^60 with g^2 s <= 4 (s is the reciprocal of the peak power), a finite weight w of at most 2000 dB and any threshold: if the level max(-72, 10 log10(g^2 s)) (-72 for g = 0) plus w exceeds the threshold by more than 0.001 dB, isAboveThreshold is true; if it is below the threshold by more than 0.001 dB, it is false, also when g^2 or g^2 s underflows. With weight -infinity (bin 0, see C122) it is always false.", "quantifier": "all monotone logarithms with absolute error at most 2^-19, all gains, factors, weights and thresholds in the ranges, any type of bins and any function abs", "why_tests_cant": "The decision is not tested; sampling gains cannot exclude that some gain, e.g. one whose power underflows, is decided wrongly.", "anchors": ["extra/plugin/src/dsp/DenseConvolution.cpp:164-169", "src/neo/unit/decibel.hpp:14-31"]}
{"id": "C124", "title": "The plugin's sparse renderer keeps the bins it should in single precision, from computed peak, weights and levels", "statement": "sparse_convolve keeps a bin of the filter if its level relative to the loudest bin of the channel, plus the bonus of the low bins or the A-weighting of its frequency, exceeds the threshold. With IEEE single precision throughout (normalization_factor, the weights, the level), for block sizes up to 2^20, sample rates from 8 to 2^19 Hz, a largest modulus from 2^-29 to 2^29 and a std::abs that is right to four units of roundoff: the factor is the reciprocal of the peak power within three units of roundoff, no step faults, and every bin of every partition whose exact level and exact weight differ from the threshold by more than 0.005 dB is decided as in exact arithmetic, bins whose power underflows included. Bin 0 is not kept unless it is one of the low bins. If all moduli are below 2^-75, a silent channel included, the factor is infinite and the levels pass through NaN, yet every bin is decided as one at the floor of -72 dB.", "quantifier": "for every partition matrix and view, every logarithm of bounded error that does not decrease, every std::abs of bounded error, every sample rate, low bin count and threshold in the range", "why_tests_cant": "the peak is a maximum of rounded squares over all bins and the decision joins four chains of roundings; a test compares the output of a few impulse responses", "anchors": ["extra/plugin/src/dsp/DenseConvolution.cpp:110-169", "src/neo/math/a_weighting.hpp:12-35", "src/neo/unit/decibel.hpp:14-31", "src/neo/fft/rfftfreq.hpp:11-18"]}
{"id": "C125", "title": "What the plugin's sparse renderer loses by deciding in single precision is bounded by the threshold", "statement": "Under the conditions of C124 and for block sizes 2^a, 1 <= a <= 20: a bin that the decision in single precision drops, other than an unprotected bin 0, has a modulus of at most 10^((threshold + 0.005 - b)/20) times the largest modulus of the channel, where b is 100 for the protected bins and the A-weighting of the bin's frequency otherwise. If tau_r bounds what may be dropped from partition r by this criterion, the energy of the difference between the outputs of the dense convolver and of the sparse convolver that uses this decision is at most 2 (sum of tau_r)^2 times the energy of the input, for every sequence of blocks.", "quantifier": "for every partition matrix and view, every logarithm and std::abs of bounded error, every threshold, low bin count and sample rate in the range, every sequence of input blocks", "why_tests_cant": "the renderer is not tested; a test can only compare the sparse with the dense output for some impulse responses and signals", "anchors": ["extra/plugin/src/dsp/DenseConvolution.cpp:110-186", "src/neo/convolution/sparse_filter.hpp", "src/neo/convolution/sparse_convolver.hpp:21-22"]}
{"id": "C126", "title": "What infinities and NaN in the filter do to the plugin's sparse renderer", "statement": "In single precision: NaN bins do not enter normalization_factor (the factor is the one of the filter with zeros in their place), and a NaN bin counts as one at the floor of -72 dB, whatever the factor is. If one bin of a channel is infinite or has a modulus of 2^64 or more, the factor is 0 and every bin of the channel, that one included, counts as one at -72 dB: with a threshold above -72 dB all bins are dropped except the protected ones and those whose weight makes up for it.", "quantifier": "for every matrix and view, every function abs, every monotone logarithm that maps NaN to NaN, every threshold and every finite weight of at most 2000 dB", "why_tests_cant": "NaN and infinities are not tested; that std::max and the floor of amplitude_to_db hide them depends on the order of arguments and comparisons, which a test of ordinary filters does not exercise", "anchors": ["extra/plugin/src/dsp/DenseConvolution.cpp:110-122", "extra/plugin/src/dsp/DenseConvolution.cpp:164-169", "src/neo/unit/decibel.hpp:14-31"]}
