import Verif.Arb.AreaModel
import Verif.Arb.AreaSound
import Verif.Arb.HullArb
import Verif.Arb.Model
import Verif.Arb.PointArb
import Verif.Arb.Series
import Verif.Arb.SetArb
import Verif.Arb.Sound
import Verif.Arb.Witness
import Verif.Area.AreaSum
import Verif.Area.Bridge
import Verif.Area.Check
import Verif.Area.Junk
import Verif.Area.Lemmas
import Verif.Area.Model
import Verif.Area.Program
import Verif.Area.Resume
import Verif.Basic
import Verif.Device.FFT
import Verif.Device.FFTLemmas
import Verif.Device.Model
import Verif.FFT.Cis
import Verif.FFT.Complex
import Verif.FFT.Eval
import Verif.FFT.First
import Verif.FFT.Inverse
import Verif.FFT.Kernel
import Verif.FFT.Levels
import Verif.FFT.Loop
import Verif.FFT.Mem
import Verif.FFT.Model
import Verif.FFT.Mul
import Verif.FFT.Norm
import Verif.FFT.Perm
import Verif.FFT.RealT
import Verif.FFT.Rounded
import Verif.FFT.RoundedBwd
import Verif.FFT.RoundedFwd
import Verif.FFT.RoundedMul
import Verif.FFT.RoundedNear
import Verif.FFT.RoundedPass
import Verif.FFT.RoundedText
import Verif.FFT.RoundedTextClose
import Verif.FFT.RoundedTextWithin
import Verif.FFT.Srfft
import Verif.FFT.Transpose
import Verif.Float.Bittner
import Verif.Float.Bounds
import Verif.Float.Division
import Verif.Float.Expansion
import Verif.Float.Format
import Verif.Float.Nearest
import Verif.Float.Product
import Verif.Float.Random
import Verif.Float.ToArb
import Verif.IO.Cut
import Verif.IO.Expansion
import Verif.IO.Fatal
import Verif.IO.Npy
import Verif.IO.Print
import Verif.IO.ReadBack
import Verif.IO.Text
import Verif.IO.TextLemmas
import Verif.IO.Tools
import Verif.Known.Compute
import Verif.Known.Pack
import Verif.Known.Perturb
import Verif.Known.Pi
import Verif.Known.RunA
import Verif.Known.RunB
import Verif.Known.Sound
import Verif.Known.Sums
import Verif.Known.Table
import Verif.Logo.Lemmas
import Verif.Logo.Model
import Verif.Loops.Lemmas
import Verif.Loops.Memory
import Verif.Loops.Model
import Verif.Loops.Relational
import Verif.Loops.Stride
import Verif.MSet.AreaInt
import Verif.MSet.AreaThm
import Verif.MSet.Chi
import Verif.MSet.Coeff
import Verif.MSet.Degree
import Verif.MSet.Extend
import Verif.MSet.External
import Verif.MSet.Green
import Verif.MSet.Param
import Verif.MSet.Parseval
import Verif.MSet.Theta
import Verif.PS.Agree
import Verif.PS.Bottcher
import Verif.PS.Deriv
import Verif.PS.ExpLog
import Verif.Props.Alias
import Verif.Props.ArbArea
import Verif.Props.ArbPoly
import Verif.Props.Arbitrary
import Verif.Props.Area
import Verif.Props.Bittner
import Verif.Props.Check
import Verif.Props.Codelets
import Verif.Props.Device
import Verif.Props.DeviceFFT
import Verif.Props.Division
import Verif.Props.EndToEnd
import Verif.Props.ExpansionGen
import Verif.Props.FFT
import Verif.Props.FFTBack
import Verif.Props.FFTBackCases
import Verif.Props.FFTFinish
import Verif.Props.FFTFinishCases
import Verif.Props.FFTGen
import Verif.Props.FFTGenCases
import Verif.Props.Fatal
import Verif.Props.Float
import Verif.Props.Gradient
import Verif.Props.Harness
import Verif.Props.IO
import Verif.Props.Junk
import Verif.Props.Known
import Verif.Props.Layout
import Verif.Props.Logo
import Verif.Props.LogoSeries
import Verif.Props.Loops
import Verif.Props.MandelbrotArea
import Verif.Props.MulBase
import Verif.Props.Nearest
import Verif.Props.NewtonSchedule
import Verif.Props.Npy
import Verif.Props.Print
import Verif.Props.Random
import Verif.Props.Resume
import Verif.Props.Rounding
import Verif.Props.Runtime
import Verif.Props.SeriesBasic
import Verif.Props.SeriesGen
import Verif.Props.SeriesNewton
import Verif.Props.Sig
import Verif.Props.Stats
import Verif.Props.Storage
import Verif.Props.Stream
import Verif.Props.Sym
import Verif.Props.TestError
import Verif.Props.Text
import Verif.Props.Tmp
import Verif.Props.ToArb
import Verif.Props.Tools
import Verif.Props.Wrapper
import Verif.Runtime.Cache
import Verif.Runtime.CacheLemmas
import Verif.Runtime.Deref
import Verif.Runtime.Storage
import Verif.Runtime.StorageLemmas
import Verif.Runtime.Stream
import Verif.Runtime.Wrapper
import Verif.Runtime.WrapperLemmas
import Verif.Series.Alias
import Verif.Series.AliasFns
import Verif.Series.AliasHistory
import Verif.Series.AliasLemmas
import Verif.Series.Bridge
import Verif.Series.Codelet
import Verif.Series.CodeletLemmas
import Verif.Series.Has
import Verif.Series.History
import Verif.Series.HistoryLemmas
import Verif.Series.Junk
import Verif.Series.Known
import Verif.Series.Model
import Verif.Series.Mul
import Verif.Series.NewtonFns
import Verif.Series.NewtonRule
import Verif.Series.Ops
import Verif.Series.Throws
import Verif.Sig.Arbitrary
import Verif.Sig.Fields
import Verif.Sig.Inv
import Verif.Sig.Lemmas
import Verif.Sig.Model
import Verif.Sig.Search
import Verif.Spec.Arb
import Verif.Spec.Bottcher
import Verif.Spec.Cpp
import Verif.Spec.FFT
import Verif.Spec.Harness
import Verif.Spec.MandelbrotSet
import Verif.Spec.Npy
import Verif.Spec.Rounding
import Verif.Spec.Series
import Verif.Spec.Storage
import Verif.Spec.Wrapper
import Verif.Sym.Block
import Verif.Sym.BlockLemmas
import Verif.Sym.Exact
import Verif.Sym.ExpansionGen
import Verif.Sym.ExpansionRun
import Verif.Sym.ExpansionSim
import Verif.Sym.ExpansionTotal
import Verif.Sym.FFTBack
import Verif.Sym.FFTGen
import Verif.Sym.FFTRun
import Verif.Sym.FFTSim
import Verif.Sym.FFTTotal
import Verif.Sym.Gradient
import Verif.Sym.History
import Verif.Sym.Kept
import Verif.Sym.Layout
import Verif.Sym.Lemmas
import Verif.Sym.Model
import Verif.Sym.MulBase
import Verif.Sym.SeriesGen
import Verif.Sym.SeriesLines
import Verif.Sym.SeriesNum
import Verif.Sym.SeriesSim
import Verif.Sym.Stats
import Verif.Sym.Text
import Verif.Sym.TextCode
import Verif.Sym.TextLemmas
import Verif.Sym.Within
import Verif.Test.Error
import Verif.Test.Harness
import Verif.Test.Tmp
