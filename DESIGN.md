# Design: a Lean 4 model of neo-sonar/neo

All C++ paths are relative to `/repo`.  Lean sources live in `lean/Verif/`:
`Core.lean` (faults, buffers, loops), `Spec/*` (specifications), `Model/*` (the code),
`Lemmas/*` (proof machinery), `Props/*` (one theorem block per property, names `Cnn_…`).

## 1. Shape of the model

* **Faults.**  Every modelled C++ function returns `Res α := Except Fault α`.
  `Fault` distinguishes `oob` (access outside a buffer), `assertion` (a failed `assert`),
  `divZero`, `overflow` (signed overflow, out-of-range conversion, oversized shift),
  `exception` (a thrown exception, also failing allocations) and `diverge` (a loop that
  never ends).  A theorem of the form `run … = .ok spec` therefore also says that none of these
  is reached; theorems that name a fault say that the code does reach it.
* **Buffers** (`mdspan`/`mdarray`/`span`) are `List α`; `rd`/`wr` are checked
  element accesses, `rdSpan`/`wrSpan` checked `submdspan` accesses.  Rank-2 views with arbitrary
  strides are `MatView` (offset, extents, strides) over a flat buffer.
* **Loops** are `forN n body s` (a `for (i = 0; i < n; ++i)` loop), `forR`/`forStep`/`forIntStep`
  (other starts and steps) or `whileFuel` (a `while` loop with a proved bound); the state is the
  tuple of mutated variables.  Loop counters of type `int`/`unsigned` are modelled with
  their width where the extent can exceed it.
* **Objects with state** (plans with work buffers, overlap schemes, convolvers, delay lines,
  the plugin's frame buffer) are structures; calls return the new state.  Properties of
  such objects are proved for every history of calls by an invariant or a refinement.
* **Floating point** is replaced by exact arithmetic: real buffers hold `ℝ`,
  complex buffers `ℂ` (or an arbitrary commutative ring where the code only adds
  and multiplies; C35 and C60 use no algebraic law at all, so they hold for IEEE operations too).
  NaN, infinities and denormals are not modelled; a float division by zero is the
  fault `divZero`.  Rounding is modelled separately for the default FFT plan (`Model/Rounding`, C64: the same kernel
  and plan definitions instantiated with a type whose every operation rounds with relative error at most `u`), for `direct_convolve` (C71, same definition) and for
  the real transforms and FFT based convolvers (C72, C73; separate definitions with the same statements, except the partitioned convolver, its delay line and its filter, which are generic in the number type).
* **Fixed-width integers** are `Int`/`Nat` with explicit range checks or `BitVec w` where the
  property is about overflow: bit_ceil, ipow, idiv, next_order, STFT frame count, fixed
  point, compressed delay line, `int` loop counters.
  Elsewhere indices are `Nat`; where a `size_t` computation can wrap the model says what happens.
* **Specifications** (`Verif/Spec/*` and the head of the `Props/*` files) are closed formulas
  (`∑`, `max`, `min`, `⌊⌋`, `Complex.exp`) that do not mention model helpers.

## 2. Trusted base

1. Lean 4.33.0's kernel and the three standard axioms `propext`,
   `Classical.choice`, `Quot.sound`.  `#print axioms` on every property theorem lists at most
   these three.  There is no `sorry`, `admit`, own axiom, `native_decide` or `bv_decide`.
2. The reading of the C++ sources: each definition cites file and lines.
3. The exact-arithmetic replacement of floating point described above.  Trigonometric
   functions and logarithms are the exact real functions.
4. Compiler intrinsics used by the SIMD kernels are modelled lane-wise from their documented
   semantics (saturating add/subtract, `pmulhrsw`, high multiply, shifts, packs).
5. JUCE and pybind11 containers are plain buffers.

## 3. What is modelled

| sources | model |
|---|---|
| `src/neo/fft/reference/c2c_dit2_plan.hpp`, `kernel/c2c_dit2.hpp`, `bitrevorder.hpp`, `twiddle.hpp`, `fft.hpp`, `direction.hpp` | `Model/Fft2` |
| `src/neo/fft/reference/digitrevorder.hpp` | `Model/DigitRev` |
| `src/neo/fft/reference/c2c_dif3_plan.hpp`, `c2c_dif5_plan.hpp`, `c2c_dit4_plan.hpp` | `Model/Radix` |
| `src/neo/fft/reference/c2c_stockham_*.hpp` | `Model/Stockham` |
| `src/neo/fft/fallback/fallback_rfft_plan.hpp`, `rfft.hpp` | `Model/Rfft` |
| `src/neo/fft/fallback/fallback_split_fft_plan.hpp`, `split_fft.hpp` | `Model/SplitFft` |
| `src/neo/fft/fallback/fallback_dft_plan.hpp`, `dct.hpp` | `Model/Dct` |
| `src/neo/fft/dft.hpp` (naive `dft`) | `Model/NaiveDft` |
| `src/neo/fft/experimental/rfft.hpp` | `Model/ExpRfft` |
| `src/neo/fft/stft.hpp`, `src/neo/convolution/uniform_partition.hpp` | `Model/Stft` |
| `src/neo/fft/order.hpp`, `src/neo/bit/*`, `src/neo/math/{ipow,idiv}.hpp` | `Model/Bits`, `Model/IntT` |
| `src/neo/convolution/{direct_convolve,fft_convolver,mode}.hpp` | `Model/Conv` |
| `src/neo/convolution/{overlap_add,overlap_save}.hpp` | `Model/Overlap` |
| `src/neo/convolution/{uniform_partitioned_convolver,fdl_index,dense_fdl,dense_filter,dense_convolver,sparse_filter,sparse_convolver}.hpp` | `Model/Upc` |
| `src/neo/convolution/overlap_add_convolver.hpp` | `Model/UpolaV2` |
| `src/neo/convolution/compressed_fdl.hpp`, `src/neo/container/compressed_accessor.hpp`; `cfloat_mul` of `extra/benchmark/src/fixed_point.cpp` | `Model/CompressedFdl`, `Model/CompressedIeee` (rounded) |
| `src/neo/container/csr_matrix.hpp`, sparse `multiply_add` | `Model/Csr` |
| `src/neo/algorithm/multiply_add.hpp` | `Model/MultiplyAdd` |
| `src/neo/algorithm/{copy,fill,scale,add,multiply}.hpp`, `backend/linalg_*.hpp` | `Model/Algo`, `Model/Mat` |
| `src/neo/algorithm/{mean,variance,standard_deviation,*mean_squared_error,normalize_*,allclose,allmatch}.hpp`, `src/neo/convolution/normalize_impulse.hpp` | `Model/Stats` |
| `src/neo/fixed_point/*.hpp` (scalar type, complex type, SSE2/SSE4.1/SSSE3/NEON kernels) | `Model/Fixed`, `Model/Simd` |
| `src/neo/unit/*.hpp`, `src/neo/math/windowing.hpp`, `src/neo/fft/rfftfreq.hpp`, `src/neo/complex/scalar_complex.hpp` | `Model/Units` |
| `extra/cli/src/convolver.cpp`, `extra/plugin/src/dsp/DenseConvolution.hpp`, `AudioBuffer.cpp` (`to_mdarray`) | `Model/Render` |
| `extra/plugin/src/dsp/ConstantOverlapAdd.hpp` | `Model/Cola` |
| `extra/plugin/src/dsp/DenseConvolution.cpp` | `Model/DensePlugin` |
| `extra/plugin/src/PerceptualConvolution.cpp`, audio part of `PluginProcessor.cpp` | `Model/PluginChain` |
| `extra/python/src/main.cpp` (`fft`, `ifft`) | `Model/Python` |
| `extra/plugin/src/dsp/DenseConvolution.cpp` (`sparse_convolve`), `src/neo/math/a_weighting.hpp` | `Model/SparseRender` |
| `src/neo/complex/scalar_complex.hpp` (+, -, *), `src/neo/fft/twiddle.hpp`, `c2c_dit2_plan.hpp` in rounded arithmetic | `Model/Rounding` |
| `extra/plugin/src/dsp/Spectrum.cpp`, `extra/plugin/src/ui/BenchmarkTab.cpp` (weight table, `runWeightingTests`) | `Model/Spectrum` |
| `src/neo/math/fast_math.hpp`, `src/neo/unit/decibel.hpp` (`precision::estimate`) | `Model/FastMath` |
| `extra/plugin/src/dsp/Convolution.hpp`, `AudioBuffer.hpp` (`processBlocks`), `AudioBuffer.cpp` (`resample`, shortcut for equal rates), `ui/BenchmarkTab.cpp` (`ProcessChainConvolver`) | `Model/PluginConv` |
| `extra/snippet/split_radix.cpp` | `Model/SplitRadix` |
| `direct_convolve.hpp` on rounded numbers | `Model/RoundingReal` (number types), `Model/Conv` (code) |
| `fallback_rfft_plan.hpp`, `fft_convolver.hpp` in rounded arithmetic | `Model/ConvRounding` |
| `overlap_add.hpp`, `overlap_save.hpp`, `stft.hpp`, `uniform_partition.hpp` in rounded arithmetic | `Model/UpcRounding`; the convolver itself is `Model/Upc` |
| `float16x8`, `float16x16` of `simd/avx.hpp` | `Model/Float16` |
| `fft/backend/{vdsp,mkl,ipp}.hpp` (plans, on top of an assumed library contract; not the IPP DCT plan) | `Model/Backend` |
| ownership in `fft/backend/{vdsp,mkl,ipp}.hpp` (constructors, moves, destructors) | `Model/Handle` |
| `extra/benchmark/src/simd_fft.cpp` (plans; not the timing loop) | `Model/SimdFft` |
| `extra/snippet/split_fft.cpp` (plans and timed steps; not `timeit`, printing) | `Model/StaticFft` |
| `extra/snippet/radix4.cpp`, `extra/snippet/stockham.cpp` (transforms; not printing) | `Model/SnippetFft` |
| `extra/snippet/rfft.cpp` (transforms and benchmark loop; not timing and printing) | `Model/SnippetRfft` |
| `extra/python/src/main.cpp` (array views, `convolve`, `rfftfreq`, overload resolution), `extra/python/src/neo/__init__.py` (`convolve`) | `Model/PythonConv` |
| `src/neo/math/{real,imag,abs,is_even,is_odd}.hpp`, `src/neo/algorithm/backend/cblas.hpp`, the vDSP branch of `src/neo/algorithm/multiply_add.hpp` | `Model/Helpers` |
| `extra/snippet/dct.py` (the three formulas; not printing) | `Model/PyDct` |
| `extra/snippet/radix4.py` (permutation, four transforms, tables; not timing, plotting and the comparison with NumPy) | `Model/PyRadix4` |
| `extra/cli/src/convolver.cpp` (`main`; not messages and timing), `extra/cli/src/wav.hpp` (on an abstract `dr_wav`) | `Model/Cli` |
| split-complex plan, split and sparse convolvers in rounded arithmetic | `Model/SplitRounding` |
| split-complex `multiply_add` on `fixed_point` and on the register classes of `fixed_point/simd.hpp`, `cmulp` of `extra/benchmark/src/fixed_point.cpp` | `Model/FixedSplit` |
| naive `dft`, `fallback_dft_plan` and `fallback_dct2_plan` in rounded arithmetic | `Model/DftRounding` |
| statistics and normalisation functions in rounded arithmetic | `Model/StatsRounding` |
| `normalize_peak`, `normalize_energy`, `mean` on vectors in IEEE 754 arithmetic with infinities and NaN | `Model/NormIeee` |
| `upola_convolver`, `upols_convolver` and their transforms over any arithmetic; IEEE 754 complex numbers | `Model/AnyArith` |
| `setImpulseResponseFile` (data), `maxChannelRMSError` and `runSparseQualityTests` of `extra/plugin/src/ui/BenchmarkTab.cpp` | `Model/BenchmarkTab` |
| `copy`, `add`, `multiply`, `multiply_add` on overlapping views of one memory | `Model/Aliasing` |
| `stft.hpp`, `uniform_partition.hpp` over any arithmetic | `Model/AnyPartition` |
| threads, jobs, callbacks and destruction of `extra/plugin/src/ui/BenchmarkTab.{hpp,cpp}`, as a transition system | `Model/BenchJobs` |
| `make_ipp_dct_handle`, `intel_ipp_dct_plan`, `intel_ipp_dct2_plan`, `intel_ipp_dct3_plan` of `ipp.hpp` on an arbitrary library meeting its documentation | `Model/BackendDct` |
| product of `std::complex` (C11 Annex G) as used by the transforms and `multiply_add` | `Model/StdComplex` |
| sparse and split-complex convolvers and `fallback_split_fft_plan` over any arithmetic | `Model/AnySparse` |
| `fft_convolver` and `fft_convolve` over any arithmetic | `Model/AnyConv` |
| `fixed_point` conversions and the benchmarks `fixed_point_mul`, `float16_mul_bench` in IEEE arithmetic | `Model/FixedIeee` |
| statistics, `normalize_energy`, `normalize_impulse` in IEEE arithmetic | `Model/NormIeee`, `Model/StatsIeee` |
| Stockham plans of radix 3, 4, 5 and 8 in IEEE arithmetic | `Model/StockhamIeee` |
| windows, `rfftfreq`, `amplitude_to_db`, mel conversions and `allclose` in IEEE arithmetic | `Model/UnitsIeee` |
| in-place plans of radix 3 and 5 in any arithmetic | `Model/Radix` |
| `twiddle` and the constants of the Stockham plans in IEEE arithmetic | `Model/TwiddleIeee` |
| naive `dft` in IEEE arithmetic | `Model/DftIeee` |
| arbitrary-length plan (Bluestein) in IEEE arithmetic | `Model/BluesteinIeee` |
| type-2 DCT plan in IEEE arithmetic | `Model/DctIeee` |
| `extra/cli/src/convolver.cpp` (`convolve`, one channel) in IEEE arithmetic | `Model/RenderIeee` |
| `src/neo/fft/stft.hpp` (any overlap and window) over any arithmetic | `Model/StftIeee` |
| `src/neo/math/a_weighting.hpp` in IEEE arithmetic | `Model/AWeightIeee` |
| `extra/plugin/src/dsp/DenseConvolution.cpp` (weights of `sparse_convolve`) in IEEE arithmetic | `Model/SparseIeee` |
| `extra/plugin/src/dsp/DenseConvolution.cpp` (predicate of `sparse_convolve`) in IEEE arithmetic | `Model/SparseDecision` |
| `extra/plugin/src/dsp/DenseConvolution.cpp` (`normalization_factor`) in IEEE arithmetic | `Model/SparsePeak` |

### Not modelled

* the vendor libraries themselves (their documented effect is a hypothesis of C75 and C99),
  the code paths of other files selected by vendor macros;
* IEEE rounding, NaN and infinities, except in C64, C68, C71, C72, C73, C88, C90 and C91, which allow every rounding of bounded relative error, and in C74, C92, C93, C96, C100, C101, C102, C103, C104, C105, C106, C107, C108, C109, C110, C111, C112, C113, C114, C115, C116, C117, C118, C119, C120, C121, C122, C123, C124, C126 and (in the decision) C125, which have IEEE rounding of finite numbers, infinities and NaN;
* the AVX2/AVX512 lane classes of `src/neo/simd/` as classes (their loops appear in C35 as loops
  of an arbitrary batch width) and the `benchmark` and `snippet` programs under `extra/` other than those in the table;
* the inside of dr_wav and of the JUCE file readers (the contract used is stated in `Model/Cli`), resampling, GUI, plugin parameter ranges, state saving and editor, the inside of JUCE's mixer (its contract is stated in `Model/PluginChain`), threads other than those of the benchmark tab (C97).

### Simplifications, by area

* **csr_matrix**: the sparsity predicate is a pure function of (row, column, value).
* **Split-complex buffers** are two planes; the planes of one `mdarray` are disjoint by construction.
* **stft**: an allocation of 2^59 or more complex numbers throws; `uniform_partition` inherits it.
* **overlap schemes**: a block size of 0 wraps to a huge FFT order; modelled as the exception the plan
  constructor throws.
* **Stockham / radix plans**: sizes are computed in `int`/`unsigned`; the width is modelled where a
  theorem covers that order; `max_order()` is not enforced by these constructors in the code, and the theorems
  therefore go beyond it where the arithmetic still works.
* **SIMD apply_kernel**: input and output do not overlap partially.
* **multiply_add / statistics / rfftfreq / allmatch**: the scalar loops use `int` counters compared with
  `static_cast<int>(extent)`; the theorems assume extents below 2^31 and separate theorems say what happens beyond.
* **fixed point**: `double` inputs are converted through an arbitrary monotone rounding to `float`;
  the float maximum of 32-bit storage rounds to 2^31 as in IEEE.
* **Renderers**: signal and impulse response are in memory; the plugin's vector of convolvers is filled with copies of a
  fresh convolver, as in the code.
* **ConstantOverlapAdd**: JUCE buffers are buffers with unspecified content after allocation, jasserts are not
  modelled (they are compiled out), the `int` index arithmetic stays in range by hypothesis.
* **Python**: pybind11 and NumPy are represented by the behaviour listed in `Model/PythonConv`; in the transforms of C59 an array is the list
  of its elements (C81 relates the two). Vectorised scalar functions of the module are not modelled.

## 4. Method

Each `Props/*` theorem quantifies over all inputs, states and histories allowed by its hypotheses;
beside the theorems `example`s show that the hypotheses are met by non-trivial data.  Where the
property is false of the code, the negation is proved with a concrete witness (`…_false`, `…_fails`),
what the code does compute is proved as a closed form, and the status in `MANIFEST.json` is
`partial`.  Theorems were tested against wrong programs: `seeded/LOG.jsonl` lists for every
attempted edit of the model which theorems failed.

## 5. Findings about the code

Each item is a theorem; the names are in the table of section 6.

* C03/C04: radix-2 kernel v4 is wrong at order 1; every kernel reads `x[1]` at order 0.
* C11/C18/C13: plans of size 0 (Bluestein) or order 0 (DCT, split) access memory out of bounds.
* C13: at order 31 the split plan's `int` stage counter overflows and nothing is transformed.
* C14: the radix-2 Stockham plans exchange the directions.
* C15/C16: the in-place radix-4 and the Stockham radix-4 decimation-in-time butterflies have the wrong sign
  of `i`; round trips still work, which hides it from the tests.
* C17: radix 3/5 plans overflow `int` at order 19/13.
* C20/C22: a one-sample operand trips an assertion in `fft_convolve`; block 1, filter 1 fails in overlap-save.
* C21: `overlap_add` is wrong (or out of bounds) for filters longer than block size + 1 or transforms shorter than two blocks.
* C26/C27: `overlap_add_convolver` loses pending input on partial blocks and keeps stale segments and the pending input position on reload; with more samples pending than the new block size the first call writes out of bounds, with exactly one new block pending one block of silence is inserted into the delay line, which is harmless (C27_v2_exact).
* C28: block sizes that are not powers of two, and 1, fault in the convolver although
  `uniform_partition` accepts them.
* C31/C59/C04: transforms of size 1 read out of bounds.
* C34: sparse multiply-add with a distinct output restarts every stored element from the accumulator input.
* C35/C50/C53/C54: scalar loops count with `int`; from 2^31 elements on they skip elements (C35: write nothing).
* C37/C38/C40: `bit_ceil` beyond the top power of two, `next_order` there, `idiv` for signed operands.
* C41/C45/C46/C47: wide storage does not saturate; SSE4.1 multiply differs from scalar for negative products and q15;
  complex fixed-point multiply uses a wrong shift and a wrong operand; the compressed delay line wraps.
* C48/C50/C52/C53: silent channels, complex mean squared error, size-1 window, half-spectrum `rfftfreq`.
* C58: the plugin frame buffer has gain 2 and starts with uninitialised memory.
* C62: the experimental real FFT rotates odd samples in the wrong direction; only the round trip is right.
- C63: with `lowBinsToKeep = 0` the weight of the DC bin is `a_weighting(0) = -inf`, so it is dropped for every threshold and
  each pruned response sums to zero. The -72 dB floor means a bin is kept whenever the threshold is below its weight minus 72.
- C66: `powerSpectrumImage` looks the weighting up at the image row (`numBins - 1 - bin`) instead of the bin, so the A-weighting
  is applied upside down; `powerHistogram` uses the bin.
- C65: if no bin is above -142.5 dB the histogram image divides zero by zero.
- C67: the displayed percentage normalises over all channels and leaves DC unweighted, while `sparse_convolve` normalises per
  channel and drops DC, so the two disagree on which bins are kept.
- C68: `fast_log2` of a subnormal number ignores the missing hidden bit: for `2^-149` it gives about -127.
- C69: `neo::Convolution::process` returns early when a block is shorter than `maximumBlockSize`, so `processBlocks` leaves the
  last incomplete block dry; `reset()` deletes the convolvers, after which `process` is a copy until the next `prepare`.
- C70: the split-radix snippet uses conjugated tables backwards but the forward sign of `i` in the butterflies, so the backward transform is wrong
  for every n ≥ 4. Sizes are not checked: those whose binary digits begin with 11 (3, 6, 7, 12, ...) recurse for ever, 2^30 overflows `int`,
  and the remaining ones that are not powers of two (5, 10, 20, ...) mix the old contents of the output buffer into the result.
- C75: in `vdsp.hpp:264,294` and `ipp.hpp:337,359` the fallback branch is the expression statement `always_false<...>;` instead of a
  `static_assert`: the split-complex plans accept strided vectors, compile, and leave the data untouched. The IPP constructors
  truncate the order to `int` before the library checks it, `fft::size` then shifts by the full order.
- C76: move-assignment of the vDSP plans overwrites `_plan` without destroying it, and the defaulted move-assignment of the MKL
  plan drops the descriptor without `DftiFreeDescriptor`: both leak. The IPP plans keep the raw `handle` when moved from.
- C77: the backward branch of `simd_fft_plan` (`simd_fft.cpp:38-40`) has its kernel call commented out: it only permutes.
- C78: the compile-time plans check no sizes; with a buffer of any other length the interleaved plan accesses memory out of bounds.
- C79: `c2c_dit4` of `radix4.cpp` computes `t1 - t3*I` for bin 1 with `I = {0, sign}`; with the twiddles of the same sign it has to be
  `t1 + t3*I` (the library's radix-4 plans have the same error, C15). The table version uses `w[j]` in every stage instead of `w[j * n / L]`.
  The plan of `stockham.cpp` builds its table from `e^(+i...)`: `fft` is the inverse transform and `ifft` the forward one; size 0 recurses for ever.
- C80: the benchmark loop of `rfft.cpp` transforms the same buffer 10000 times without normalising: the samples grow by N/2 per pass and leave the
  range of `float` (N = 1024: after 15 passes). The length comes from the command line unchecked; unless half of it is a power of two the transform
  accesses memory beyond the buffer.
- C81: `main.cpp:173` tests `in1.ndim()` twice; a matrix as second operand is accepted and only its first column is used. `make_strides` divides the
  byte stride by the item size, truncating, and casts to `size_t`: record fields read the wrong memory, reversed views read out of bounds. The views
  take `mutable_data()` of inputs that are only read, so read-only arrays raise. The `float` overload is registered first and wins for every pair
  of types that is not exactly (double, double): integers and mixed operands are computed in single precision. `rfftfreq(n)` returns `n` values,
  NumPy's returns `n/2 + 1`.
- C82: `math::imag(x)` of a real `x` returns `x` instead of 0 (the test in `imag_test.cpp` expects that). `math::abs(INT_MIN)` is undefined.
- C83: `cblas.hpp` casts the extent to `MKL_INT`; in the default 32-bit interface a vector of at least 2^31 elements becomes a negative count, which BLAS treats as nothing to do.
- `algorithm/copy.hpp`: the overload for `split_complex` calls `in.extent(0)`, which `split_complex` does not have; it cannot be instantiated.
- C85: `digitreversal` of `radix4.py` assigns entry 1 of a table that has one entry when there are fewer than two digits: the four drivers raise for lengths 1, 2 and 4
  although the transforms themselves handle them. `plot_times` stores eight values into an array of six (it is not called).
- C86: `load_wav_file` returns an empty buffer with rate 0 when a file cannot be read. If neither input can be read the two empty buffers match, and
  `neo_convolver` replaces the output by a file without channels and exits with status 0. `write_wav_file` ignores the result of
  `drwav_init_file_write`: an output that cannot be opened also ends with status 0. All variants write to the same path, so where `_Float16` exists the
  half-precision rendering is the one that remains.
- C87: `PerceptualConvolution` never announces the latency of its frame buffer (the calls are commented out), so the dry path of the mixer runs F-1
  samples ahead of the wet path and the host compensates nothing; the wet path is twice too loud; `getTailLengthSeconds` is 0. `prepare` creates a new
  convolution and nothing resets it, so the first F-1 wet samples are uninitialised memory. The impulse response has an absolute path on the author's
  machine; where it is missing the plugin passes the signal through the identity filter.
- C89: the complex product of two fixed-point numbers saturates before `z` is added, so a large product and an opposite `z` lose the head-room. The SSE4.1
  class `q7x16` turns every negative product into 127/128 and the `mulhrs` classes turn (-1)(-1) into -1 (see C45 and C46), so their split-complex products are wrong
  there by up to the full range.
- C92: `normalize_peak` multiplies by the rounded reciprocal of the peak. For a peak of 2^-128 or less (subnormal `float`s) the reciprocal is infinite: samples
  become infinite and zeros NaN. For a peak above 2^126 the reciprocal is subnormal and the result may exceed 1 (1.5 * 2^127 becomes 1 + 2^-23). `normalize_energy`
  of a signal with one sample of 2^64 or more returns silence, and of a signal whose samples are all at most 2^-75 returns it unchanged. `mean` adds before it
  divides, so the mean of two `float`s 2^127 is infinite.
- C93: one NaN sample silences nothing but spoils N+1 whole output blocks, including the samples of its block that precede it; after that the convolvers
  recover without a reset. The products of a step are added in the order of the delay-line slots, which rotates with the block number, so in floating-point
  arithmetic a periodic or constant input gives an output that repeats only every N blocks (8388608 and 8388609 in the example of `C93_slot_order`).
- C94: the benchmark tab partitions the impulse from sample 512 on (`submdspan(impulse, full_extent, tuple{blockSize, extent(1)})`), so the direct sound, usually the
  strongest part, is missing from the images and from the percentage of C67; a click is shown as silence. Impulses of at most 512 samples run out of bounds when they
  are loaded. A mono impulse with a stereo signal, or no impulse at all, makes every benchmark run out of bounds: only the signal is checked.
- C95: the scalar split-complex `multiply_add` stores `out.real[i]` before it reads `z.imag[i]`, so `multiply_add(x, y, {a, b}, {b, a})` gives a wrong imaginary part,
  while the vectorised version reads a whole batch first and is right for sizes that are multiples of the batch; the remaining elements are wrong again.
- C96: `overlap_add` and `overlap_save` scale by `1/(2B)` after the inverse transform, so intermediate results are up to `2B` times larger than the output (and spectra up to
  `2B` times larger than the samples). With the unit impulse as filter and B = 2 a sample of a quarter of the overflow threshold comes back as infinity; for `float` signals near
  full scale this is irrelevant, for half precision (threshold 65536) with a block size of 256 the condition only admits filters with `∑ |h| ≤ 1/4`.
- C97: the benchmark jobs read `_signal`, `_impulse`, `_impulseFile`, `_spec` and the `juce::Value`s on the worker thread, while the message thread and `prepareToPlay` assign them without a lock (`C97_race_witness`); the quality test may even compare renderings of two different signals (`C97_mixed_witness`). The callbacks posted with `callAsync` capture `this`; closing the editor before they have run is an access to a destroyed object (`C97_dangling_witness`). The jobs themselves are safe in this respect only because `_threadPool` is the last member and its destructor kills a job that is still running. Assumed of JUCE: a pool with one thread runs jobs in queue order; `removeAllJobs (true, …)` drops waiting jobs; the destructor of the pool ends with the thread stopped or killed; callbacks run on the message thread one at a time. Time-outs may end at any moment in the model. Whether a load is refused (no file, sample rate 0) is left to the environment.
- C99: `intel_ipp_dct2_plan` is orthonormal, `fallback_dct2_plan` is not: an alias that selected one or the other (as `fft_plan` does) would change every non-zero spectrum. `dct.hpp` includes `ipp.hpp` but defines no such alias. From order 31 on the length passed to IPP is negative or zero, which IPP rejects.
- C100/C93: an infinite or NaN filter coefficient spoils every output sample from the first block on, silence included, because the delay line starts with
  zeros and zero times infinity is NaN. `irfft` never looks at the imaginary parts of bins 0 and N/2, not even when they are NaN.
- C101: `fft_plan<std::complex<float>>` and `fft_plan<neo::scalar_complex<float>>` can give different results, but only where neither has a finite part; code that tests spectra with
  `isnan` alone can tell the two apart, code that tests with `isfinite` cannot.
- C109: `fixed_point(double)` rounds to `float` before it cuts off, so a `double` just below a step becomes that step. `fixed_point<int32_t, 31>` has a negative `scale`
  (`1 << 31`), so its sign is inverted; the class accepts 32-bit storage although its conversions and operators only work for 8 and 16 bits. With SSE4.1 the benchmark
  `fixed_point_mul` measures wrong products for q7 and 14 fractional bits (see C45).
- C111: `amplitude_to_db` of a NaN gain returns the floor (`std::max(infinity, NaN)` is `infinity`); the Hann and Hamming windows of size one are NaN (`0 / 0`, windowing.hpp:39,55); `allclose(x, x)` is false if `x` has an infinity or NaN; `allclose` of `neo::scalar_complex` with tolerance 0 accepts different values whose squares underflow, e.g. `2^-100` and 0 in `float` (scalar_complex.hpp:137-153).
- C112: the twiddles of the in-place radix-3 and radix-5 plans are computed by repeated multiplication (`wi *= w`), so the proved error grows with the number of points, where it grows with the order for the Stockham plans of the same radices (C110); in `float` nothing useful is left of the bound beyond about `3^13` points.
- C114: `dft` forms `sign * two_pi * n * k` before dividing by the size and does not reduce it. The error of the factors grows with `n k / N` (the twiddles of the plans stay within 46u), and in half precision the product overflows: from size 129 on, every bin from 128 on is NaN for every finite input.
- C120: `a_weighting` squares the frequency first: in `float` it is NaN from `2^64` Hz on (`inf - inf`) and `-inf` below `2^-75` Hz, although the documented precondition is only `frequency > 0`; both are far outside of the audible range.
- C126: one infinite bin, or one of modulus `2^64` or more, makes the factor of `sparse_convolve` 0 and with it the level of every bin of the channel -72 dB, so that an overflow in the filter empties the channel instead of being reported; NaN bins are taken for silent ones.

## 6. Status per property

`proved`: the statement in `properties.jsonl` is proved of the model within the stated ranges.
`partial`: see the note.

| id | title | status | theorem file | note |
|---|---|---|---|---|
| C01 | fft() computes the discrete Fourier transform | proved | `Props/Fft` | Default plan, all four kernels, both directions, exact arithmetic over the complex numbers; also the out-of-place overloads. |
| C02 | ifft(fft(x)) == N * x | proved | `Props/Fft` | Both compositions and injectivity. |
| C03 | All radix-2 kernels agree | partial | `Props/Fft`, `Props/NonFinite` | Holds for every order >= 2 and for v1-v3 at order 1; kernel v4 is wrong at order 1 (C03_v4_order_one, C03_false_at_order_one). C03_any_arithmetic and C03_bit_exact show that the agreement is bit for bit in every arithmetic, whatever its operations do. |
| C04 | The size-1 transform is the identity and stays in bounds | partial | `Props/Fft`, `Props/SplitFft` | False of the code: every order-0 call reads x[1] out of bounds (C04_order_zero_out_of_bounds; split plan: C04_split_out_of_bounds). Only the reordering step is in bounds. |
| C05 | Plan construction accepts exactly the supported orders | proved | `Props/Fft` | Default plan. |
| C06 | Bit-reversal reordering is the bit-reversal permutation and an involution | proved | `Props/Fft` | Table-driven and table-free variants, complex, interleaved and split buffers. |
| C07 | Digit-reversal reordering is the base-R digit-reversal permutation | proved | `Props/Fft` |  |
| C08 | rfft() returns the non-redundant half of the DFT | proved | `Props/Rfft` | Any reachable plan state (the plan buffer persists between calls), exact arithmetic. |
| C09 | irfft() inverts rfft() up to N | proved | `Props/Rfft` | Spectrum buffers of N/2+1..N elements; any reachable plan state. |
| C10 | rfft_deinterleave() separates two real spectra | proved | `Props/Rfft` | Every N >= 1, odd or even, plus the end-to-end version with the FFT plan. |
| C11 | dft_plan computes the DFT for every size | proved | `Props/Dct` | Exact arithmetic, fallback plan; sizes with 2n+1 <= 2^27; larger sizes throw (C11_too_large); size 0 is out of bounds (C11_size_zero_out_of_bounds). |
| C12 | The naive dft() is the DFT and its two directions are inverse up to N | proved | `Props/Dft` | Exact arithmetic. |
| C13 | The split-complex FFT equals the interleaved FFT | proved | `Props/SplitFft` | Exact arithmetic, fallback plan, orders 1 to 30 (comparison with the interleaved plan up to its maximum order 27). At order 31 no butterfly runs (C13_order_31_no_transform); order 0 is out of bounds. |
| C14 | The Stockham radix-2 plans compute the forward DFT | partial | `Props/Stockham` | False of the code from order 2 on (C14_false): both plans exchange the directions. Proved: forward computes the unscaled inverse transform and backward the forward one, every order (iterative plan up to order 30; from 31 on an int overflows), so round trips are right. |
| C15 | The in-place radix-4 plans compute the forward DFT | partial | `Props/Radix4` | False of the code at every order from 1 on (C15_false): the butterfly uses the wrong sign of i, so bin k is the DFT of the input with signs flipped where the base-4 digit product Spec.digitDot is odd. That closed form is proved for orders 1 to 16, both plans, both directions, and with it that round trips give 4^order times the input. Order 0 is out of bounds. |
| C16 | The Stockham plans of radix 3, 4, 5 and 8 compute the DFT | partial | `Props/Radix4`, `Props/Stockham` | Proved for the decimation-in-frequency plans of radix 3, 4, 5 and 8 for all sizes below 2^32 (beyond every max_order()), any content of the work buffer, exact arithmetic. False for radix-4 decimation in time at every order (C16_dit4_false); proved there: the closed form with the wrong signs and the round trip. |
| C17 | The in-place radix-3 and radix-5 plans compute the DFT | proved | `Props/Radix` | Exact arithmetic; orders 0 to 18 (radix 3, max_order 17) and 0 to 12 (radix 5, max_order 11); beyond them an int overflows (C17_radix3_order_19_overflow, C17_radix5_order_13_overflow). |
| C18 | dct2_plan computes the unnormalised DCT-II | proved | `Props/Dct` | Exact arithmetic, fallback plan, orders 1 to 27; a wrong length asserts; order 0 is out of bounds. |
| C19 | direct_convolve() is full linear convolution | proved | `Props/Conv` | Exact arithmetic over any commutative ring; non-empty inputs (two empty inputs wrap the output size and throw, modelled). |
| C20 | fft_convolve() equals direct_convolve() | partial | `Props/Conv` | Equal to direct_convolve for both sizes >= 2 and empty-in/empty-out; a one-sample input trips the constructor assertion (C20_single_sample_asserts), so the full statement is false of the code. Engine proved for every reused state. |
| C21 | overlap_add streams a linear convolution | partial | `Props/Overlap`, `Props/OverlapExact` | True exactly for F <= B+1 with a transform of at least two blocks (C21_exact_sizes, an equivalence); the full statement is false for all other sizes (C21_every_long_filter_fails: wrong output for every F >= B+2; C21_short_transform_oob: out-of-bounds). |
| C22 | overlap_save streams a linear convolution | proved | `Props/Overlap`, `Props/OverlapExact` | All B dividing the transform size (every power of two), F>=1, (B,F) != (1,1); exact arithmetic. C22_exact_sizes: beyond that it holds exactly for one-tap filters. |
| C23 | The uniformly partitioned convolvers compute the linear convolution with the loaded impulse response | proved | `Props/Upc` | Both overlap schemes, all power-of-two block sizes 2..2^26, exact arithmetic; filters produced by uniform_partition. |
| C24 | Split-complex convolvers equal their interleaved counterparts | proved | `Props/Upc` | All filter matrices and all lists of blocks, including faulting ones. |
| C25 | Sparse convolvers convolve with the thresholded filter | proved | `Props/Upc` | Any predicate (pure); also the accept-all case. |
| C26 | upola_convolver_v2 computes the linear convolution for every accepted call length | partial | `Props/UpolaV2`, `Props/UpolaV2Exact` | True exactly for histories in which every call but the last is a multiple of the block size (C26_exact_shapes, an equivalence); the full statement is false for every other history (C26_every_partial_call_fails: an earlier partial call loses pending input; C26_lost_sample, C26_false). |
| C27 | Loading a new filter discards all history | partial | `Props/Upc`, `Props/UpolaV2`, `Props/UpolaV2Reload` | Proved for all six uniform_partitioned_convolver aliases in every state; for overlap_add_convolver exactly: the outputs after filter() are right for every response of K segments if and only if the current segment is inside the new filter, at most one (new) block was pending and every call but the last ends at a block boundary counted from the pending position (C27_v2_exact; for whole blocks C27_v2_exact_blocks). Otherwise a sample is lost or the call runs out of bounds (C27_v2_stale_segment, C27_v2_false). |
| C28 | uniform_partition and the convolver agree on the block size | partial | `Props/Upc` | Proved for powers of two >= 2; for every other block size the convolver faults (C28_other_block_sizes_fault), so the full statement is false. |
| C29 | The delay-line indexer pairs every stored block with the filter segment of its age | proved | `Props/FdlIndex` |  |
| C30 | The convolver is causal, linear and time-invariant | proved | `Props/Upc` | All six aliases, every filter matrix; whenever the convolver runs without a fault (see C30_not_vacuous). |
| C31 | stft() covers every sample and stays in bounds | proved | `Props/Stft` | Transform size >= max(F,2); size 1 reads out of bounds (proved separately). |
| C32 | csr_matrix built from a dense matrix reads back the filtered matrix | proved | `Props/Csr` | Pure sparsity predicate. |
| C33 | csr_matrix::insert behaves like updating a map | proved | `Props/Csr` | Every state reachable by insertions from an empty or dense-constructed matrix. |
| C34 | Sparse multiply-add computes out = x * y[row] + z | partial | `Props/Csr` | Accumulating form and in-place output proved; with a distinct output span the code starts every stored element from the accumulator input, so the general form fails (C34_distinct_output_fails). |
| C35 | Vectorised and scalar multiply-add agree on every length | proved | `Props/MultiplyAdd` | No algebraic laws used, so it covers floating point; SSE2/AVX/xsimd loops of any batch width, split and interleaved; from 2^31 elements on the scalar loop writes nothing (C35_scalar_huge). |
| C36 | Split-complex multiply-add is complex multiply-add | proved | `Props/MultiplyAdd` | Exact arithmetic; lengths below 2^31. |
| C37 | bit_ceil is the least power of two not below its argument | proved | `Props/Bits` | Machine words of 8/16/32/64 bits; behaviour outside the range proved separately (C37_outside). |
| C38 | next_order gives the smallest transform that fits | proved | `Props/Bits` | Machine integers of every standard type, both bit_ceil code paths; beyond the range std::bit_ceil is undefined and the portable path returns order 0 (C38_too_large). |
| C39 | ipow is integer exponentiation | proved | `Props/Bits` | Machine integers, run-time and compile-time base (all shift specialisations). |
| C40 | idiv is ceiling division | partial | `Props/Bits` | Full statement proved for unsigned types (C40_unsigned) and for non-negative x whose x + y is representable; false for signed types otherwise (C40_false). C40_signed_exact is the exact behaviour for signed types: overflow exactly when x + y does not fit, otherwise the truncated quotient of x + y - 1, which is the ceiling exactly when x > -y or y divides x - 1. |
| C41 | Fixed-point addition and subtraction saturate exactly | proved | `Props/Fixed` | Machine integers; wider storage fails (C41_wide_storage). |
| C42 | Fixed-point multiplication truncates and saturates | proved | `Props/Fixed` | Machine integers, 0 <= F <= 30. |
| C43 | Fixed-point negation saturates | proved | `Props/Fixed` | Machine integers, all four storage widths. |
| C44 | Float/fixed conversions round-trip and are order preserving | proved | `Props/Fixed` | Floats as reals (multiplying by the power-of-two scale is exact); double via an arbitrary (monotone) rounding to float. |
| C45 | Vectorised fixed-point arithmetic equals scalar arithmetic | partial | `Props/Fixed` | add and subtract proved on every instruction set; multiply proved except on SSE4.1 with negative products or q15, where the full statement is false (C45_false). q15 on SSE4.1 is within one unit unless both operands are -1 (C45_sse41_q15_partial). C45_sse41_exact describes SSE4.1 completely: at which indices and for which operands the result is the scalar one (an equivalence) and what it is otherwise. |
| C46 | Fixed-point complex multiplication approximates the complex product | partial | `Props/Fixed` | False of the code (C46_false: wrong shift, imaginary part of the left operand used for the right one). Proved: what the code computes for all operands (C46_exact), how far that is from the complex product when both imaginary parts agree (C46_equal_imag_partial) and when both are zero (C46_real_operands). |
| C47 | The compressed delay line reproduces inserted spectra within half a quantisation step | partial | `Props/CompressedFdl` | Proved for 8- and 16-bit storage and components in [-1,1] (scaling in exact arithmetic; with rounding in C107). 'Saturates outside' is false: the conversion wraps (C47_no_saturation). 32-bit storage is false even at 1 because the float maximum rounds to 2^31 (C47_int32_false). C47_outside_exact and C47_int32_exact say exactly what is stored and when the bound and the saturation nevertheless hold. |
| C48 | normalize_impulse bounds the energy of every channel and keeps channel balance | partial | `Props/Stats` | One common positive factor, energy at most 1, silent matrices unchanged, no division by zero: proved. 'The loudest has energy exactly 1' is proved when no channel is silent or some channel has energy >= 1, and is false otherwise (C48_silent_channel_false). |
| C49 | normalize_peak and normalize_energy reach their target | proved | `Props/Stats` | Real arithmetic; vectors and arbitrary valid rank-2 views. |
| C50 | mean, variance, standard deviation and (root) mean squared error are the textbook quantities | partial | `Props/Stats` | Everything proved for real inputs with extents below 2^31 (int loop counter, C50_too_long). mean_squared_error of complex inputs compares magnitudes, so 'zero exactly for equal inputs' is false there (C50_mse_complex_false); empty inputs divide by zero. |
| C51 | Mel and decibel conversions are inverse and monotone | proved | `Props/Units` | Real arithmetic; the estimate precision is C68. |
| C52 | Window functions are symmetric and bounded | proved | `Props/Units` | Real arithmetic; size 1 divides by zero (C52_small). |
| C53 | rfftfreq lists the bin centre frequencies | proved | `Props/Units` | Real arithmetic, lengths below 2^31. A vector holding only the n/2+1 bins of a real transform is filled with other values (C53_half_spectrum_false). |
| C54 | allclose/allmatch are reflexive, symmetric element-wise tests | proved | `Props/Stats` | Extents below 2^31 (int loop counter). |
| C55 | scalar_complex arithmetic is complex arithmetic | proved | `Props/Units` | Real arithmetic. |
| C56 | The FFT preserves energy and turns circular convolution into multiplication | proved | `Props/Dft` | Default plan, exact arithmetic. |
| C57 | Whole-file convolution with a final short block equals truncated convolution | proved | `Props/Render` | Signal and impulse in memory (no file I/O, no final normalize_peak); signal length + block size at most 2^31 (int loop counter); exact arithmetic; the four dense convolvers. |
| C58 | The plugin's frame buffer is a pure delay for an identity processor | partial | `Props/Cola` | False of the code (C58_false): the window factor 1/((F/H)/2) makes the gain 2, not 1, for every frame size and divider. Proved: for every (stateful) frame processor and every slicing the output is the overlap-add of the processed frames F-1 samples late (C58_overlap_add, C58_slicing); with an identity processor a delay of F-1 samples with gain 2, smaller during the first F-H samples (C58_partial). Without reset() after prepare() the output starts with uninitialised memory (C58_uninitialised). int ranges assumed, JUCE containers modelled as buffers. |
| C59 | Python fft/ifft normalisation modes are mutually inverse | proved | `Props/Python` | Orders 1 to 27, exact arithmetic, fallback plan; length 1 is out of bounds (C59_length_one); another length argument asserts (C59_length_argument). |
| C60 | Element-wise vector algorithms are exact and in bounds | proved | `Props/Algo` | Rank-1 and rank-2 (arbitrary strided views) and split-complex copies; portable code path. |
| C61 | The plugin's streaming convolution is a delayed convolution for every slicing | proved | `Props/DensePlugin` | Exact arithmetic. C61_no_impulse covers the branch without an impulse response (identity filter). File reading and resampling are not modelled; the state is the one after prepare() and reset() (the plugin itself omits the reset, see C87). |
| C62 | The experimental in-place real FFT computes the packed half spectrum | partial | `Props/ExpRfft` | Inner complex plan (orders 1-29) and round trip (orders 2-30, both directions) proved. The forward spectrum claim is false of the code: the rotation angle has the wrong sign, so the output is the packed spectrum of the signal whose odd-numbered samples are advanced by two; C62_forward_correct_iff shows it is right exactly when all odd-numbered samples are equal, C62_forward_not_dft is a concrete witness. Orders 0 and 1 fault (C62_small_orders). |
| C63 | The plugin's sparse renderer drops exactly the inaudible bins | proved | `Props/SparseRender` | Exact arithmetic; logarithms are real logarithms with log10(0) = -inf. Block sizes 2 to 2^26, sample rate nonzero. Observed: with lowBinsToKeep = 0 the DC bin is dropped for every threshold (C63_dc_always_dropped); lowBinsToKeep outside 0..bins is out of bounds (C63_low_bins_out_of_range). |
| C64 | Rounding errors of the default FFT grow at most linearly with the order | proved | `Props/Rounding` | Standard model of floating-point arithmetic: every operation returns the exact result times (1+d) with \|d\| <= u. Overflow, underflow and fused multiply-add are not modelled. A 24-bit round-to-nearest format (binary32, unbounded exponent) is constructed as an instance. |
| C65 | The level histogram counts every bin once at its rounded weighted level | proved | `Props/Spectrum` | Exact arithmetic; juce::roundToInt is library code, modelled as rounding to nearest with ties to even. If the weighting attenuates every bin below -143 dB the bar heights are 0/0 (C65_bars_all_inaudible). |
| C66 | The spectrogram image marks the bins whose weighted level is below the threshold | partial | `Props/Spectrum` | False for weightings that are not symmetric over the bins: the weight is looked up at the image row numBins-1-bin instead of the bin (C66_weighting_upside_down). C66_image_rows states exactly what is drawn; C66_image_partial is the claim for symmetric weightings, including no weighting. |
| C67 | The displayed percentage is the share of audible filter bins | proved | `Props/Spectrum` | Exact arithmetic. The 1024-entry weight table bounds the number of bins; the caller uses 513. |
| C68 | Accuracy of the fast logarithms | proved | `Props/FastMath` | Error of the formula plus propagated rounding, for any rounding with unit roundoff 2^-24; the constants and literals are rounded too. Infinities, NaN and subnormal inputs are outside the bound (C68_subnormal_wrong). |
| C69 | Block-wise rendering through neo::Convolution is linear convolution | partial | `Props/PluginConv` | False for a final incomplete block, which is passed through dry (C69_short_block_dry); everything else is proved, including reuse of the object. The resampler is an arbitrary function, reading files is outside the model. |
| C70 | The split-radix FFT snippet computes the DFT and its inverse | partial | `Props/SplitRadix`, `Props/SplitRadixSizes` | Forward holds for all powers of two up to 2^29 (C70_forward_partial). Backward is false for every n >= 4 (C70_backward_false): the butterflies keep the sign of i of the forward transform; only n = 1, 2 are right. C70_sizes says what happens for every size below 2^31: sizes that begin with the binary digits 11 (and zero) recurse for ever, those that begin with 10 end, or overflow an int when 3 * n does not fit. C70_stale_output: where the call ends and n is not a power of two, the result depends on the old contents of the output buffer. Hence the exact domains: forward right iff n = 2^P with P <= 29 (C70_forward_exact), backward right iff n = 1 or 2 (C70_backward_exact). |
| C71 | Rounding errors of direct_convolve | proved | `Props/DirectRounding` | Standard model of floating-point arithmetic as in C64 (no overflow, underflow or fused multiply-add). The loops are the generic definition already used for C19, instantiated with rounded numbers. |
| C72 | Rounding errors of rfft, irfft and fft_convolve | proved | `Props/ConvRounding` | Standard model of floating-point arithmetic as in C64. The rounded plan and convolver are separate definitions (Model/ConvRounding) with the same statements as the exact ones. Inputs of one sample assert, see C20. |
| C73 | Rounding errors of the streaming partitioned convolvers do not accumulate | proved | `Props/UpcRounding` | Standard model of floating-point arithmetic as in C64. The convolver, delay line and filter are the definitions of Model/Upc (generic in the number type); overlap stage, STFT and transforms are separate rounded definitions (Model/UpcRounding, Model/ConvRounding) with the same statements as the exact ones. Split-complex and sparse variants are not covered. |
| C74 | Half-precision SIMD batches round correctly | proved | `Props/Float16` | The intrinsics are trusted to do per lane what they document (exact widening, correctly rounded binary32 operation, correctly rounded narrowing) in the default rounding mode without flushing denormals. Signed zeros and NaN payloads are not distinguished. |
| C75 | Vendor FFT plans compute the transform and are interchangeable with the fallback plan | partial | `Props/Backend` | False for strided split-complex vectors: the guard `always_false<...>;` is an expression statement, not a static_assert, so the call compiles and does nothing (C75_split_strided_wrong; Apple's out-of-place call also when input and output differ in layout); C75_split_partial covers contiguous planes. False for IPP orders of 2^32 and more, which are truncated to int (C75_ipp_order_truncated). The library contract is a hypothesis (Vendor.Contract); referenceVendor shows it can be met. |
| C76 | Vendor plans release every library object exactly once | partial | `Props/Handle` | No double release: proved. False for vDSP and MKL when a plan is move-assigned onto a plan that owns an object: the object is never released (C76_assignment_leaks, C76_leak_witness). False for IPP when a moved-from plan is called after the new owner is gone (C76_ipp_dangling). C76_all_released_partial excludes the first case. |
| C77 | SIMD FFT plans transform every lane independently | partial | `Props/SimdFft` | False for the backward direction of simd_fft_plan: the kernel call is commented out, the plan only permutes the elements (C77_backward_only_permutes, C77_backward_not_idft); C77_forward_lanes_partial covers the forward direction. The split plan is proved for both directions. Batches are functions from lanes to exact numbers; the arithmetic of a batch is lane-wise. |
| C78 | Compile-time FFT plans compute the transform | proved | `Props/StaticFft` | Exact arithmetic. Template recursion is modelled as recursion over the remaining stages. Order 0 does not compile. |
| C79 | Radix-4 and Stockham snippets compute the DFT | partial | `Props/SnippetFft` | Proved for c2c_stockham. False for c2c_dit4: t1 -/+ t3*I has the wrong sign for I = {0, sign} (C79_dit4_false at every order; C79_dit4_partial says what it computes); the version with a table in addition reads the table without the stage's stride, so that it differs from the other version from order 3 on (C79_table_false, C79_table_partial). The plan of stockham.cpp has the directions exchanged (C79_stockham_plan_false, C79_stockham_plan_partial). Round trips give N times the input in all cases but the table version. The literal 3.14159265359 is idealised to pi. |
| C80 | The real transform snippet computes the packed half spectrum | proved | `Props/SnippetRfft` | Exact arithmetic; the float literals for pi and 2 pi are idealised. A transform whose nn does not fit an int is a fault of the model. |
| C81 | neo.convolve returns the full convolution of two NumPy arrays | partial | `Props/PythonConv` | Holds for writeable one-dimensional arrays of equal floating-point type with non-negative strides that are multiples of the item size, non-empty, and for 'fft' of at least two elements (C81_convolve_partial). False otherwise: the rank of in2 is never checked (C81_second_rank_unchecked), 'fft' with one sample or one empty operand aborts (C81_fft_single_sample, C81_empty), reversed views are read out of bounds (C81_negative_stride), strides that are not multiples of the item size read other memory (C81_odd_stride), read-only arrays raise (C81_read_only), operands of mixed or integer type are rounded to single precision first (C81_mixed_types). The behaviour of pybind11 and NumPy assumed is listed in Model/PythonConv. |
| C82 | Scalar helpers: real, imag, abs, parity | partial | `Props/Helpers` | False for imag of a real number, which returns the number itself (C82_imag_of_real_false; the repository's test asserts this), and for abs of the smallest value of int and wider signed types, which is undefined (C82_abs gives both directions). The rest is proved: C82_complex_parts, C82_parity. |
| C83 | Vendor versions of scale and multiply_add agree with the portable loops | partial | `Props/Helpers` | multiply_add is proved for lengths below 2^31 (C83_multiply_add); planes of different lengths stop at an assertion (C83_wrong_lengths). scale is proved for lengths that fit the library's integer type (C83_scale_partial) and false beyond: with MKL's default 32-bit interface a vector of 2^31 to 2^32 elements is silently left unscaled (C83_scale_truncated, C83_scale_truncated_witness). |
| C84 | The DCT formulas of dct.py compute the type-2 DCT | proved | `Props/PyDct` | Exact arithmetic. scipy.fft.fft is a parameter assumed to return the DFT and to raise on an empty array (ScipyFft). |
| C85 | The FFTs of radix4.py compute the DFT | proved | `Props/PyRadix4` | Exact arithmetic; np.linspace(0, kmax, kmax+1) is idealised to 0, 1, ..., kmax, and the float loop variables (powers of the radix, exact below 2^53) to natural numbers. |
| C86 | neo_convolver writes the rendered file or reports failure | partial | `Props/Cli` | Proved for successful runs (C86_success_partial), wrong arguments and mismatches (C86_refused) and one unreadable input (C86_one_unreadable). False if both inputs are unreadable: status 0 and an output without channels (C86_both_unreadable_false); false if the output cannot be opened: status 0 (C86_unwritable_false). With a compiler that has _Float16 a third, half-precision rendering overwrites the others (C86_last_variant_wins). dr_wav is not in the repository; its behaviour is an assumption of Model/Cli. Exact arithmetic. |
| C87 | The plugin mixes the amplified input with its convolution | partial | `Props/PluginChain` | Proved: the output for every stream, slicing and parameter sequence, with and without the impulse response file (C87_stream_partial, C87_no_file_partial), the silence in place of memory content after releaseResources (C87_reset_partial), the accepted layouts (C87_layouts), the unprepared plugin (C87_unprepared). The property is false: the wet signal is F-1 samples later than the dry one and than the reported latency 0, at twice the amplitude, and outlasts the reported tail 0 (C87_click_false); it starts with F-1 samples of uninitialised memory (C87_garbage_false). juce::dsp::DryWetMixer is outside the repository; its contract is an assumption of Model/PluginChain. Exact arithmetic. |
| C88 | Split-complex and sparse code rounds like the interleaved dense code | proved | `Props/SplitRounding` | Standard model of floating-point arithmetic (no overflow, underflow, NaN or fused multiply-add). Idempotence and symmetry of the rounding are hypotheses of C88_sparse_* and C88_split_backward_interleaved; both hold for IEEE rounding to nearest, and an example format with both is given (binary32s). |
| C89 | Split-complex fixed-point multiply-add | partial | `Props/FixedSplit` | Proved for q7 and q15 (C89_scalar, C89_scalar_error, C89_scalar_saturated, C89_cmulp) and for q15x8 on NEON, which equals q15 (C89_neon). For q15x8 on SSE4.1, q15x16 and q15x32 proved, with error at most one unit, unless a product has both factors -1 (C89_batch_partial); there the product is -1 instead of nearly 1, and q7x16 gives nearly 1 for every negative product (C89_q7x16, C89_false). The intermediate saturation of the product cannot be dropped from the statement (C89_product_saturates). |
| C90 | Rounding errors of dft, dft_plan and dct2_plan | proved | `Props/DftRounding` | Standard model of floating-point arithmetic (no overflow, underflow, NaN or fused multiply-add); std::exp of a number with real part zero is assumed to be std::polar(1, imaginary part). |
| C91 | Rounding errors of the statistics and normalisation functions | proved | `Props/StatsRounding` | Standard model of floating-point arithmetic (no overflow, underflow, NaN or fused multiply-add); the square root is the correctly rounded root. For complex inputs of mean_squared_error the bound is relative to the computed magnitudes. |
| C92 | Normalisation and mean over the whole range of a floating-point format | partial | `Props/NormIeee` | Proved for all values of the format: what normalize_peak does in each range of the peak (C92_peak_vec_partial, C92_peak_mat_partial). The property holds for peaks above 2^-emax up to 2^(emax-2) and fails outside: a smaller peak gives infinities and NaN, a larger one a peak that may exceed 1 by up to 2^(2-P) (C92_peak_false). normalize_energy silences an input with one sample whose square overflows (C92_energy_overflow) and leaves an input unchanged whose squares underflow (C92_energy_underflow); mean overflows (C92_mean_overflow). For the ranges in between see C91 and C108, whose rounding assumption C92_standard_model justifies. Signed zeros are not distinguished; products and sums are not fused. |
| C93 | The partitioned convolvers have finite memory in any arithmetic, and recover from NaN | proved | `Props/AnyArith`, `Props/NonFinite` | Complex products are those of neo::scalar_complex (four products, a difference and a sum); for std::complex, which may recover an infinity from NaN, see C101_nonfinite_upola and C101_nonfinite_upols. The twiddle tables and the filter are arbitrary. Signed zeros and NaN payloads are not distinguished, and products and sums are not fused. C93_nonfinite_* extend the statement on NaN to infinities and to infinite or NaN filter coefficients. Dense convolvers only. |
| C94 | The benchmark tab analyses the whole impulse and measures the error of the sparse rendering | partial | `Props/BenchmarkTab` | The error measure (C94_max_rmse) and the quality test (C94_quality, C94_unit_impulse) are proved in exact arithmetic; the range is not rounded to float. The analysis is proved for impulses of more than 512 samples (C94_analysis_partial), and the claim about the whole impulse is false: the partitions leave out the first 512 samples, so an impulse that ends there is analysed as silence (C94_start_ignored), and impulses of at most 512 samples run out of bounds (C94_short_impulse). The quality test does not return if the impulse has fewer channels than the signal or none is loaded (C94_missing_channels). |
| C95 | Element-wise algorithms on overlapping views | partial | `Props/Aliasing` | Proved for copy (with an exact criterion, C95_copy_exact), add, multiply, multiply_add and, in batches, for split planes. False for split planes in the scalar loop and in the rest behind the last batch if the output planes are those of z with exchanged roles: the real part is stored before the imaginary part of z is read (C95_split_swapped_false, C95_split adds the missing condition). Batches and scalar loop differ if an element is overwritten too early (C95_batch_differs). |
| C96 | In IEEE arithmetic the partitioned convolvers stay finite and accurate as long as (2B)^2 times input times filter does not overflow | proved | `Props/IeeeConv` | C96_upols and C96_upola: any accuracy of the tables and any bounds; C96_unit and C96_growth: explicit constants for correctly rounded tables (C96_tables) and samples of magnitude at most one; C96_rfft: one transform; C96_intermediate_overflow: the condition on intermediate results cannot be dropped. Products and sums are not fused, signed zeros are not distinguished, complex products are those of neo::scalar_complex; for std::complex see C101_accuracy. Dense convolvers with the reference FFT. |
| C97 | The jobs of the benchmark tab run in order, undisturbed, and not beyond the life of the tab | partial | `Props/BenchJobs` | Proved for every execution: order, nothing lost or stuck (C97_order, C97_all_started), jobs never touch the destroyed tab (C97_worker_alive). False of the code, with witnesses: races (C97_race_witness), jobs that mix two signals even without a race (C97_mixed_witness), callbacks into the destroyed tab (C97_dangling_witness). Exact conditions: C97_race_iff, C97_load_signal_iff, C97_dangling_iff; under the discipline of loading nothing while jobs wait or run the claim on races and values holds (C97_quiet_partial). Contracts of JUCE's ThreadPool and MessageManager are assumed. |
| C98 | A sparse convolver differs from the dense one by no more than the dropped coefficients allow | proved | `Props/SparseError` | In exact arithmetic (the rounding errors of the convolvers are C90 and C96). C98_sparse_error, C98_filter_distance, C98_gain; for the renderer C98_rendered_error with the bound in decibel C98_dropped_level. The factor 2 is an upper bound and is not claimed to be the best possible. |
| C99 | The IPP cosine plans are orthonormal, undo each other and are not a drop-in for the fallback plan | proved | `Props/BackendDct` | Exact arithmetic; the library is an arbitrary DctVendor and its documentation the hypothesis DctVendor.Contract. Orthogonality of the cosine matrix is proved, not assumed. The comparison C99_fallback composes with C18. |
| C100 | Where infinities and NaN go in the transforms | proved | `Props/NonFinite` | Complex products are those of neo::scalar_complex. The parts about infinities carry over to std::complex by C101; a NaN may become an infinity there. Signed zeros and NaN payloads are not distinguished; products and sums are not fused. |
| C101 | std::complex and neo::scalar_complex give the same results | proved | `Props/StdComplex` | The product of std::complex is modelled as in C11 G.5.1 example 1 (libgcc and compiler-rt); the algorithm is not in the repository, and a compiler option such as -ffast-math, which the build files do not set, would replace it by the textbook product. The vectorised multiply_add for std::complex (xsimd) is outside. Signed zeros and NaN payloads are not distinguished, and products and sums are not fused. Reference transforms and dense convolvers. |
| C102 | What a sparse convolver skips it does not read, in any arithmetic | proved | `Props/AnySparse` | Signed zeros and NaN payloads are not distinguished. Products and sums are not fused, and the sparse kernel is the scalar loop of multiply_add.hpp. Block sizes are powers of two. |
| C103 | Split-complex code gives the bits of the interleaved code, infinities and NaN included | proved | `Props/AnySplit` | C103_convolvers and C103_forward need only LawfulParts/SplitArith, the textbook formulas for the parts, met by exact, rounded and IEEE complex numbers. Signed zeros and NaN payloads are not distinguished; products and sums are not fused. The order 0 backward transform is C103_backward only. |
| C104 | The one-shot convolutions in IEEE arithmetic: accuracy, infinities and NaN, order of the operands | proved | `Props/OneShot` | C104_direct, C104_fft_convolve, C104_fft_convolve_unit, C104_direct_nonfinite, C104_direct_reads, C104_fft_nonfinite, C104_fft_std, C104_fft_no_memory, C104_fft_swap, C104_direct_swap, C104_direct_order. Signed zeros and NaN payloads are not distinguished; products and sums are not fused. The error bound of fft_convolve is relative to the product of the sums of magnitudes, not to the single sample; that is the nature of the method, not a gap. |
| C105 | The complex transforms and round trips in IEEE arithmetic: finiteness, accuracy, overflow | proved | `Props/IeeeFft` | C105_fft, C105_round_trip, C105_scaled, C105_real_round_trip, C105_std, C105_growth, C105_overflow; the real forward transform is C96_rfft. The division by 2^b after a round trip is exact arithmetic here (the code leaves it to the caller; by a power of two it is exact above the subnormal range). The bounds are per bin and relative to the sum of magnitudes; C64 and C72 bound the error in the Euclidean norm in the absence of overflow and underflow. Products and sums are not fused. |
| C106 | Exact symmetries in IEEE arithmetic: polarity, silence, real bins, order of the operands | proved | `Props/Symmetry` | C106_polarity_fft, C106_polarity_rfft, C106_polarity_irfft, C106_polarity_upola, C106_polarity_upols, C106_polarity_convolve, C106_silence_upola, C106_silence_upols, C106_real_bins, C106_commute, C106_commute_ieee. The formats have one zero: signed zeros are not told apart, so 'exactly zero' means +0 or -0, and the sign of a zero result is not claimed. The NaN payload is not modelled. Products and sums are not fused. The tables are parameters: that their first entry is polar(1, 0) = 1 is a hypothesis of C106_real_bins, that they are finite one of the silence theorems. |
| C107 | Compressed spectra in IEEE arithmetic: accuracy, lossless re-insertion, order, undefined conversions, products | proved | `Props/CompressedIeee` | C107_insert, C107_full_scale, C107_invariant, C107_reinsert, C107_order, C107_undefined, C107_half_step_false, C107_multiply_real, C107_multiply_complex. Outside [-1,1] the stored value wraps as in C47_outside_exact, 32-bit storage is C47_int32_false. long has 64 bits. Signed zeros are not told apart; products and sums are not fused. The conversion constructor of the mdspan with the accessor is modelled as reading every element through access(); the noise signals of the benchmark are arbitrary inputs. |
| C108 | Statistics and energy normalisation in IEEE arithmetic: finite and accurate within the range of the format | proved | `Props/StatsIeee` | C108_mean, C108_variance, C108_mse, C108_mse_self, C108_energy, C108_energy_float, C108_impulse. Scalars are real; complex mean squared errors with rounding are in C91. Products and sums are not fused; signed zeros are not told apart. What happens outside the ranges is C92. One channel (rank 1) of normalize_impulse is normalize_energy. |
| C109 | Conversions between fixed point and floating point, and products of converted noise, in IEEE arithmetic | proved | `Props/FixedIeee` | (a) C109_from_float, (b) C109_monotone, (c) C109_accuracy and C109_double_rounds_up, (d) C109_to_float, C109_to_half, C109_half_lossy, (e) C109_fixed_point_mul and C109_fixed_point_mul_sse41, (f) C109_float16_mul; C109_wide_storage. Rounding to nearest even; signed zeros are not told apart. The complex branches of fixed_point_mul are not instantiated by the program and not modelled. |
| C110 | Finiteness and accuracy of the Stockham plans of radix 3, 4, 5 and 8 in IEEE arithmetic | proved | `Props/StockhamIeee` | (a) C110_fft, C110_std, (b) C110_round_trip, (c) C110_tables, C110_growth. The loops are those of C16 over any arithmetic; rounding to nearest even; signed zeros are not told apart. The values std::sin and std::sqrt return, and the tables of twiddles, are arguments with an assumed accuracy. |
| C111 | Order, range and accuracy of windows, bin frequencies, units and comparisons in IEEE arithmetic | proved | `Props/UnitsIeee`, `Props/WindowIeee` | (a) C111_window, C111_window_one, (b) C111_rfftfreq_order, C111_rfftfreq_accuracy, C111_rfftfreq_vec, (c) C111_decibel, C111_decibel_accuracy, (d) C111_mel, C111_mel_frequencies, (e) C111_allclose_symm, C111_allclose_refl, C111_close, C111_complex_close. std::cos, std::log10 and std::pow are arguments; what is assumed of them is stated in CosOk and LogOk and met by the correctly rounded functions (cosR_ok, log10R_ok, pow10R_mono). Products and sums are not fused; signed zeros are not told apart. |
| C112 | Finiteness and accuracy of the in-place radix-3 and radix-5 plans in IEEE arithmetic | proved | `Props/RadixIeee` | (a) C112_fft, C112_std, (b) C112_round_trip, (c) C112_growth. The loops are those of C17 over any arithmetic (OddRadix.run constructs the plan and calls it); rounding to nearest even; signed zeros are not told apart. The twiddles are arguments with an assumed accuracy, met by correctly rounded ones (C110_tables). Orders 19 and 13 and above overflow in m *= radix (C17). |
| C113 | The twiddles and constants as the code computes them in IEEE arithmetic, and the transforms built on them | proved | `Props/TwiddleIeee` | (a) C113_twiddle, (b) C113_conj, C113_tables (the form the transform theorems take), (c) C113_constants, (d) C113_radix2, C113_radix2_std, C113_stockham, C113_in_place. std::cos and std::sin are arguments of assumed accuracy (CosOk, SinOk), met by the correctly rounded functions (cosR_ok, sinR_ok); std::polar multiplies the radius with cosine and sine, as in the common standard libraries; no fused products; no negative zero. |
| C114 | The naive transform dft(in, out, dir) in IEEE arithmetic: finite and accurate, and where its angle overflows | proved | `Props/DftIeee` | (a) C114_factor, (b) C114_dft, C114_dft_explicit, (c) C114_overflow, (d) C114_mismatch. std::cos and std::sin are arguments of assumed accuracy (CosOk, SinOk), met by the correctly rounded functions; in (c) they are NaN at infinities and NaN; in and out are distinct buffers; no fused products; no negative zero. |
| C115 | The arbitrary-length plan (Bluestein) in IEEE arithmetic: usable any number of times, finite and accurate | proved | `Props/BluesteinIeee` | (a) C115_chirp, (b) C115_plan, (c) C115_dft, C115_dft_explicit. The inner transforms are the default in-place radix-2 plan with the twiddles of C113. std::cos and std::sin are arguments of assumed accuracy (CosOk, SinOk), met by the correctly rounded functions; no fused products; no negative zero. |
| C116 | The type-2 DCT plan in IEEE arithmetic: usable any number of times, finite and accurate | proved | `Props/DctIeee` | (a) C116_scale, (b) C116_plan, (c) C116_dct, C116_dct_explicit. The inner transform is the default in-place radix-2 plan with the twiddles of C113. std::exp, std::cos and std::sin are arguments of assumed accuracy (exp(0) = 1, CosOk, SinOk), met by the correctly rounded functions; no fused products; no negative zero. Order 0 is C18. |
| C117 | Convolution with the tables the code itself computes is finite and accurate in IEEE arithmetic, with both complex types | proved | `Props/EndToEnd` | (a), (c) C117_stream, (b), (c) C117_fft_convolve. Joins C96, C101, C104 and C113. The cosine and sine are arguments of assumed accuracy (CosOk, SinOk with one unit roundoff), met by the correctly rounded functions; no fused products; no negative zero. |
| C118 | The renderer's chain (normalise, partition, convolve, cut) in IEEE arithmetic is finite and accurate for every impulse response with an energy in range | proved | `Props/RenderIeee`, `Props/RenderSplit` | C118_render; single precision: C118_float; the split-complex convolvers render the same bits: C118_split. One channel at a time: the copies between the interleaved buffers and the blocks are C57. Joins C108 and C117. The cosine and sine are arguments of assumed accuracy, met by the correctly rounded functions; no fused products; no negative zero. |
| C119 | The short-time Fourier transform in IEEE arithmetic is finite and accurate frame by frame, and neither calls nor frames influence each other | proved | `Props/StftIeee` | C119_no_memory, C119_separate (any arithmetic); C119_stft (any window), C119_windows (the windows of the library), C119_float (single precision, default options). Options with overlap below the frame size and a frame that fits into the transform, as in C31. The cosine and sine are arguments of assumed accuracy, met by the correctly rounded functions; no fused products; no negative zero. |
| C120 | The A-weighting is accurate to a thousandth of a decibel in floating point | proved | `Props/AWeightIeee` | Accuracy: C120_accuracy; overflow: C120_large; underflow: C120_small; single precision: C120_float. The logarithm is an argument of assumed accuracy (LogNear), met by the correctly rounded one; no fused products. Exact arithmetic: C63. |
| C121 | The mel scale is accurate in floating point, there and back and in tables | proved | `Props/MelIeee` | (a) C121_hertz_to_mel, (b) C121_mel_to_hertz, (c) C121_round_trip, (d) C121_mel_frequencies. The model is that of C111 (Model/UnitsIeee). The logarithm and the power are arguments of assumed accuracy (LogNear, PowNear), met by the correctly rounded ones; no fused products. Exact arithmetic: C51. |
| C122 | The weights of the plugin's sparse renderer are accurate in single precision | proved | `Props/SparseIeee` | C122_weights. Joins C111 (bin frequencies) and C120. The logarithm is an argument of assumed accuracy (LogNear), met by the correctly rounded one; the sample rate is any real number. The decision whether a bin is kept is C123, in exact arithmetic C63. |
| C123 | The plugin's sparse renderer decides on bins in single precision as in exact arithmetic, up to a thousandth of a decibel | proved | `Props/SparseDecision` | C123_decision. Relative to the gain and the factor as computed: the errors of std::abs and of the peak are added in C124. The logarithm is an argument of assumed accuracy (LogNear) that does not decrease (LogOk), met by the correctly rounded one. The decision in exact arithmetic is C63. |
| C124 | The plugin's sparse renderer keeps the bins it should in single precision, from computed peak, weights and levels | proved | `Props/SparsePeak` | C124_peak, C124_kept, C124_silent. Joins C122 and C123 with the peak search. The inputs are the filter bins as computed: the rounding of the partitioning transform is not part of it. The logarithm and std::abs are arguments of assumed accuracy, met by the correctly rounded ones. Largest moduli between 2^-75 and 2^-29 or above 2^29 are not covered; normalize_impulse scales the channels by one factor that gives the loudest of them unit energy. |
| C125 | What the plugin's sparse renderer loses by deciding in single precision is bounded by the threshold | proved | `Props/SparsePruned` | C125_pruned. Joins C124 with C98. The decision is in single precision, the transforms and products of the two convolvers are in exact arithmetic; their rounding is C96. AbsNear (the accuracy of std::abs) is met by the correctly rounded modulus (absNear_round). |
| C126 | What infinities and NaN in the filter do to the plugin's sparse renderer | proved | `Props/SparseNan` | C126_nan_peak, C126_nan_bin, C126_infinite. abs is an argument: std::abs of a complex number with an infinite part is infinite, otherwise with a NaN part it is NaN. |
