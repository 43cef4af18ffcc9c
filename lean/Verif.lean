import Verif.Props.Statistics
import Verif.Props.PadeFreq
import Verif.Props.Pole
import Verif.Props.Linalg
import Verif.Props.PoleFit
import Verif.Props.PoleFitOcc
import Verif.Props.Matrix
import Verif.Props.Siam
import Verif.Props.Cpa
import Verif.Props.Density
import Verif.Props.Beb
import Verif.Props.Pade
import Verif.Props.Hermpade
import Verif.Props.LinearPrediction
import Verif.Props.Fourier
import Verif.Props.FourierPole
import Verif.Props.FourierPoleOcc
import Verif.Props.CompositeDos
import Verif.Props.CompositeGf
import Verif.Props.Laplace
import Verif.Props.LaplaceSeries
import Verif.Props.Toplevel
import Verif.Props.Bethe
import Verif.Props.Lattice
import Verif.Props.Bethez
import Verif.Props.Moments
import Verif.Props.RetTime
import Verif.Props.Composite
import Verif.Props.Square
import Verif.Props.DensityTail
import Verif.Props.NumberPoles
import Verif.Props.Polepade
import Verif.Props.Continuation
import Verif.Props.PolepadeMoments
import Verif.Props.Rectangular
import Verif.Props.Triangular
import Verif.Props.TriangularGf
import Verif.Props.LaplaceHerm
import Verif.Props.PadeMod
import Verif.Props.Bcc
import Verif.Props.PadeFilter
import Verif.Props.PaderScale
import Verif.Props.PaderRank
import Verif.Props.Sc
import Verif.Props.ScCentre
import Verif.Props.Fcc
import Verif.Props.Fock
import Verif.Props.RealSpaceTree
import Verif.Props.RealSpace
import Verif.Props.RealSpaceDoc
import Verif.Props.Decomp
import Verif.Props.HermpadeCls
import Verif.Props.CpaUnique
import Verif.Props.PadeFreqFull
import Verif.Props.PadeFreqLimit
import Verif.Props.PadeFreqMono
import Verif.Props.PadeSym
import Verif.Props.FourierConv
import Verif.Model.Nd
import Verif.Spec.Stack
import Verif.Model.Stack
import Verif.Lemmas.Nd
import Verif.Props.Stack
import Verif.Model.StackFit
import Verif.Props.StackFit
import Verif.Model.StackFitZ
import Verif.Lemmas.NdConcat
import Verif.Props.StackFitZ
import Verif.Model.StackFourier
import Verif.Props.StackFourier
import Verif.Model.StackLaplace
import Verif.Props.StackLaplace
import Verif.Model.StackSiam
import Verif.Props.StackSiam
import Verif.Props.StackBurg
import Verif.Model.PadeStack
import Verif.Spec.PadeStack
import Verif.Props.PadeStack
import Verif.Props.PadeStackFilter
import Verif.Props.ExpRange
import Verif.Props.CpaStart
import Verif.Props.BebTrunc
import Verif.Props.CpaAnalytic
import Verif.Props.CpaTail
import Verif.Lemmas.MatStieltjes
import Verif.Lemmas.BebFixpoint
import Verif.Props.BebUnique
import Verif.Lemmas.BebAnalytic
import Verif.Props.BebAnalytic
import Verif.Spec.Linear
import Verif.Lemmas.LstsqLinear
import Verif.Props.Linear
import Verif.Props.LinearFit
import Verif.Props.PredictSym
import Verif.Props.SeriesSym
import Verif.Props.LinalgUnique
import Verif.Props.Units
import Verif.Props.UnitsFit
import Verif.Props.UnitsFourier
import Verif.Props.UnitsNeg
import Verif.Props.UnitsSystems
import Verif.Props.UnitsDisorder
import Verif.Props.Causal
import Verif.Props.Filling
import Verif.Props.Spectrum
import Verif.Props.FxdoccLimit
import Verif.Props.CpaBand
import Verif.Props.Rounding
import Verif.Model.Memory
import Verif.Model.InPlace
import Verif.Spec.Memory
import Verif.Lemmas.Memory
import Verif.Props.Memory
import Verif.Props.ErrorKinds
import Verif.Spec.Noise
import Verif.Props.Noise
import Verif.Model.InPlace2
import Verif.Props.Memory2
import Verif.Props.MemoryBurg
import Verif.Model.Generator
import Verif.Spec.Generator
import Verif.Lemmas.Generator
import Verif.Props.Generator
import Verif.Model.AveragerMem
import Verif.Spec.AveragerMem
import Verif.Lemmas.AveragerMem
import Verif.Props.AveragerMem
import Verif.Model.PoleOpt
import Verif.Spec.PoleOpt
import Verif.Lemmas.LstsqEcMin
import Verif.Props.PoleOpt
import Verif.Props.PoleOptTau
import Verif.Model.InPlace3
import Verif.Model.MaskedMem
import Verif.Props.Memory3
import Verif.Props.MemoryMasked
import Verif.Model.ModAveragerMem
import Verif.Spec.ModAveragerMem
import Verif.Lemmas.ModAveragerMem
import Verif.Props.ModAveragerMem
import Verif.Lemmas.FloatDos
import Verif.Props.FloatDos
import Verif.Lemmas.FloatTau
import Verif.Props.FloatTau
import Verif.Lemmas.FloatRet
import Verif.Props.FloatRet
import Verif.Props.FloatMoments
