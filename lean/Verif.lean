import Verif.Core
import Verif.Lemmas.AWeightIeee
import Verif.Lemmas.Accum
import Verif.Lemmas.Algo
import Verif.Lemmas.Aliasing
import Verif.Lemmas.AnyArith
import Verif.Lemmas.AnyArithMem
import Verif.Lemmas.AnyConv
import Verif.Lemmas.AnyPartition
import Verif.Lemmas.AnySparse
import Verif.Lemmas.AnySplit
import Verif.Lemmas.ArithLin
import Verif.Lemmas.ArithRel
import Verif.Lemmas.Backend
import Verif.Lemmas.BackendDct
import Verif.Lemmas.BackendReach
import Verif.Lemmas.BenchJobs
import Verif.Lemmas.BenchmarkTab
import Verif.Lemmas.BitRev
import Verif.Lemmas.BitRevInterleaved
import Verif.Lemmas.Bits
import Verif.Lemmas.Bluestein
import Verif.Lemmas.Cola
import Verif.Lemmas.CompressedIeee
import Verif.Lemmas.Conv
import Verif.Lemmas.ConvRounding
import Verif.Lemmas.Csr
import Verif.Lemmas.Dct
import Verif.Lemmas.DctOrtho
import Verif.Lemmas.DftLaws
import Verif.Lemmas.DftRounding
import Verif.Lemmas.DigitRev
import Verif.Lemmas.DigitRevPlan
import Verif.Lemmas.Direct
import Verif.Lemmas.DirectRounding
import Verif.Lemmas.Dit
import Verif.Lemmas.Dit2
import Verif.Lemmas.ExpPlan
import Verif.Lemmas.ExpRecomb
import Verif.Lemmas.ExpRfft
import Verif.Lemmas.FastMath
import Verif.Lemmas.FftConv
import Verif.Lemmas.Fixed
import Verif.Lemmas.FixedIeee
import Verif.Lemmas.FixedSplit
import Verif.Lemmas.Ieee
import Verif.Lemmas.IeeeConv
import Verif.Lemmas.IeeeError
import Verif.Lemmas.IntT
import Verif.Lemmas.Keyed
import Verif.Lemmas.Mat
import Verif.Lemmas.MelIeee
import Verif.Lemmas.MultiplyAdd
import Verif.Lemmas.NonFinite
import Verif.Lemmas.NormIeee
import Verif.Lemmas.Out
import Verif.Lemmas.Overlap
import Verif.Lemmas.PartitionRounding
import Verif.Lemmas.PyRadix4
import Verif.Lemmas.Radix
import Verif.Lemmas.Radix4
import Verif.Lemmas.Radix4Sum
import Verif.Lemmas.RadixAny
import Verif.Lemmas.RadixNear
import Verif.Lemmas.Render
import Verif.Lemmas.Rfft
import Verif.Lemmas.RfftReach
import Verif.Lemmas.Root
import Verif.Lemmas.Rounding
import Verif.Lemmas.Simd
import Verif.Lemmas.SimdFft
import Verif.Lemmas.SnippetFft
import Verif.Lemmas.SnippetRfft
import Verif.Lemmas.SparseError
import Verif.Lemmas.SparseIeee
import Verif.Lemmas.SparseRender
import Verif.Lemmas.Spectrum
import Verif.Lemmas.SplitFft
import Verif.Lemmas.SplitRadix
import Verif.Lemmas.SplitRadixSizes
import Verif.Lemmas.SplitRounding
import Verif.Lemmas.Stage
import Verif.Lemmas.StaticFft
import Verif.Lemmas.Stats
import Verif.Lemmas.StatsIeee
import Verif.Lemmas.StatsRounding
import Verif.Lemmas.StdComplex
import Verif.Lemmas.Stft
import Verif.Lemmas.StftIeee
import Verif.Lemmas.Stockham
import Verif.Lemmas.Stockham2
import Verif.Lemmas.StockhamAny
import Verif.Lemmas.StockhamDit4
import Verif.Lemmas.StockhamErr
import Verif.Lemmas.StockhamIeee
import Verif.Lemmas.StockhamNear
import Verif.Lemmas.Stream
import Verif.Lemmas.Sums
import Verif.Lemmas.UnitsIeee
import Verif.Lemmas.Upc
import Verif.Lemmas.UpcInst
import Verif.Lemmas.UpcLti
import Verif.Lemmas.UpcOk
import Verif.Lemmas.UpcRel
import Verif.Lemmas.UpcRounding
import Verif.Lemmas.UpcRun
import Verif.Lemmas.UpolaV2
import Verif.Lemmas.UpolaV2Reload
import Verif.Model.AWeightIeee
import Verif.Model.Algo
import Verif.Model.Aliasing
import Verif.Model.AnyArith
import Verif.Model.AnyConv
import Verif.Model.AnyPartition
import Verif.Model.AnySparse
import Verif.Model.Backend
import Verif.Model.BackendDct
import Verif.Model.BenchJobs
import Verif.Model.BenchmarkTab
import Verif.Model.Bits
import Verif.Model.BluesteinIeee
import Verif.Model.Cli
import Verif.Model.Cola
import Verif.Model.CompressedFdl
import Verif.Model.CompressedIeee
import Verif.Model.Conv
import Verif.Model.ConvRounding
import Verif.Model.Csr
import Verif.Model.Dct
import Verif.Model.DctIeee
import Verif.Model.DensePlugin
import Verif.Model.DftIeee
import Verif.Model.DftRounding
import Verif.Model.DigitRev
import Verif.Model.ExpRfft
import Verif.Model.FastMath
import Verif.Model.Fft2
import Verif.Model.Fixed
import Verif.Model.FixedIeee
import Verif.Model.FixedSplit
import Verif.Model.Float16
import Verif.Model.Handle
import Verif.Model.Helpers
import Verif.Model.IntT
import Verif.Model.Loops
import Verif.Model.Mat
import Verif.Model.MultiplyAdd
import Verif.Model.NaiveDft
import Verif.Model.NormIeee
import Verif.Model.Overlap
import Verif.Model.PluginChain
import Verif.Model.PluginConv
import Verif.Model.PyDct
import Verif.Model.PyRadix4
import Verif.Model.Python
import Verif.Model.PythonConv
import Verif.Model.Radix
import Verif.Model.Render
import Verif.Model.RenderIeee
import Verif.Model.Rfft
import Verif.Model.Rounding
import Verif.Model.RoundingReal
import Verif.Model.Simd
import Verif.Model.SimdFft
import Verif.Model.SnippetFft
import Verif.Model.SnippetRfft
import Verif.Model.SparseDecision
import Verif.Model.SparseIeee
import Verif.Model.SparsePeak
import Verif.Model.SparseRender
import Verif.Model.Spectrum
import Verif.Model.SplitFft
import Verif.Model.SplitRadix
import Verif.Model.SplitRounding
import Verif.Model.StaticFft
import Verif.Model.Stats
import Verif.Model.StatsIeee
import Verif.Model.StatsRounding
import Verif.Model.StdComplex
import Verif.Model.Stft
import Verif.Model.StftIeee
import Verif.Model.Stockham
import Verif.Model.StockhamIeee
import Verif.Model.TwiddleIeee
import Verif.Model.Units
import Verif.Model.UnitsIeee
import Verif.Model.Upc
import Verif.Model.UpcRounding
import Verif.Model.UpolaV2
import Verif.Props.AWeightIeee
import Verif.Props.Algo
import Verif.Props.Aliasing
import Verif.Props.AnyArith
import Verif.Props.AnySparse
import Verif.Props.AnySplit
import Verif.Props.Backend
import Verif.Props.BackendDct
import Verif.Props.BenchJobs
import Verif.Props.BenchmarkTab
import Verif.Props.Bits
import Verif.Props.BluesteinIeee
import Verif.Props.Cli
import Verif.Props.Cola
import Verif.Props.CompressedFdl
import Verif.Props.CompressedIeee
import Verif.Props.Conv
import Verif.Props.ConvRounding
import Verif.Props.Csr
import Verif.Props.Dct
import Verif.Props.DctIeee
import Verif.Props.DensePlugin
import Verif.Props.Dft
import Verif.Props.DftIeee
import Verif.Props.DftRounding
import Verif.Props.DirectRounding
import Verif.Props.EndToEnd
import Verif.Props.ExpRfft
import Verif.Props.FastMath
import Verif.Props.FdlIndex
import Verif.Props.Fft
import Verif.Props.Fixed
import Verif.Props.FixedIeee
import Verif.Props.FixedSplit
import Verif.Props.Float16
import Verif.Props.Handle
import Verif.Props.Helpers
import Verif.Props.IeeeConv
import Verif.Props.IeeeFft
import Verif.Props.MelIeee
import Verif.Props.MultiplyAdd
import Verif.Props.NonFinite
import Verif.Props.NormIeee
import Verif.Props.OneShot
import Verif.Props.Overlap
import Verif.Props.OverlapExact
import Verif.Props.PluginChain
import Verif.Props.PluginConv
import Verif.Props.PyDct
import Verif.Props.PyRadix4
import Verif.Props.Python
import Verif.Props.PythonConv
import Verif.Props.Radix
import Verif.Props.Radix4
import Verif.Props.RadixIeee
import Verif.Props.Render
import Verif.Props.RenderIeee
import Verif.Props.RenderSplit
import Verif.Props.Rfft
import Verif.Props.Rounding
import Verif.Props.SimdFft
import Verif.Props.SnippetFft
import Verif.Props.SnippetRfft
import Verif.Props.SparseDecision
import Verif.Props.SparseError
import Verif.Props.SparseIeee
import Verif.Props.SparseNan
import Verif.Props.SparsePeak
import Verif.Props.SparsePruned
import Verif.Props.SparseRender
import Verif.Props.Spectrum
import Verif.Props.SplitFft
import Verif.Props.SplitRadix
import Verif.Props.SplitRadixSizes
import Verif.Props.SplitRounding
import Verif.Props.StaticFft
import Verif.Props.Stats
import Verif.Props.StatsIeee
import Verif.Props.StatsRounding
import Verif.Props.StdComplex
import Verif.Props.Stft
import Verif.Props.StftIeee
import Verif.Props.Stockham
import Verif.Props.StockhamIeee
import Verif.Props.Symmetry
import Verif.Props.TwiddleIeee
import Verif.Props.Units
import Verif.Props.UnitsIeee
import Verif.Props.Upc
import Verif.Props.UpcRounding
import Verif.Props.UpolaV2
import Verif.Props.UpolaV2Exact
import Verif.Props.UpolaV2Reload
import Verif.Props.WindowIeee
import Verif.Spec.Cola
import Verif.Spec.Dct
import Verif.Spec.DctOrtho
import Verif.Spec.Dft
import Verif.Spec.DftNorm
import Verif.Spec.Energy
import Verif.Spec.Gamma
import Verif.Spec.Ieee
import Verif.Spec.IeeeOrder
import Verif.Spec.Levels
import Verif.Spec.NonFinite
import Verif.Spec.Norm
import Verif.Spec.Quality
import Verif.Spec.Radix4
import Verif.Spec.Signal
import Verif.Spec.Sparse
import Verif.Spec.Stats
