import Verif.Basic
import Verif.Props.SosfiltExact
import Verif.Props.SosfiltAlgebra
import Verif.Props.Companion
import Verif.Props.InitialState
import Verif.Props.Ext
import Verif.Props.Sosfiltfilt
import Verif.Props.FromScipy
import Verif.Props.Factorial
import Verif.Props.Combinatorics
import Verif.Props.Median
import Verif.Props.Moments
import Verif.Props.Bessel
import Verif.Props.BesselAccuracy
import Verif.Props.Square
import Verif.Props.Convolve
import Verif.Props.Resample
import Verif.Props.Savgol
import Verif.Props.Design.Transforms
import Verif.Props.Design.Prototype
import Verif.Props.Design.Poly
import Verif.Props.Design.Cplx
import Verif.Props.Design.Zpk2sos
import Verif.Props.Design.Iirfilter
import Verif.Props.Design.Response
import Verif.Props.Design.Formats
import Verif.Props.RoundedStats
import Verif.Props.RoundedSos
import Verif.Props.IntStats
import Verif.Props.Counting
import Verif.Props.Sinusoid
import Verif.Props.Design.SosOutput
import Verif.Props.Design.EndToEnd
import Verif.Props.CompanionRelease
import Verif.Props.SquareFloat
import Verif.Props.RoundedWitness
import Verif.Props.ResampleMore
import Verif.Lemmas.Bessel.Rounded
import Verif.Model.BesselRounded
import Verif.Props.BesselRounded
import Verif.Spec.Ieee
import Verif.Lemmas.Ieee
import Verif.Lemmas.IeeeSos
import Verif.Lemmas.IeeeStats
import Verif.Props.IeeeSos
import Verif.Props.IeeeStats
import Verif.Lemmas.Bessel.Ieee
import Verif.Model.BesselIeee
import Verif.Props.BesselIeee
import Verif.Model.Rounded.Arith
import Verif.Model.Rounded.Iirfilter
import Verif.Model.Rounded.Zpk
import Verif.Model.Rounded.Zpk2sos
import Verif.Spec.ArithLaws
import Verif.Spec.NumComplex
import Verif.Spec.RoundedDesign
import Verif.Lemmas.BinaryRounding
import Verif.Lemmas.Rounded.Coefficients
import Verif.Lemmas.Rounded.Conj
import Verif.Lemmas.Rounded.Cplx
import Verif.Lemmas.Rounded.Exact
import Verif.Lemmas.Rounded.Iirfilter
import Verif.Lemmas.Rounded.Lawful
import Verif.Lemmas.Rounded.Zpk2sos
import Verif.Props.Rounded.Design
import Verif.Lemmas.Schur
import Verif.Lemmas.Rounded.Zeros
import Verif.Props.Rounded.Coefficients
import Verif.Props.Rounded.LowEdge
import Verif.Lemmas.Design.Minimal
import Verif.Props.Design.Minimal
import Verif.Props.Design.Analog
import Verif.Spec.SectionOrder
import Verif.Lemmas.Design.Greedy
import Verif.Props.Design.SectionOrder
import Verif.Spec.LibmAccuracy
import Verif.Lemmas.Rounded.Error
import Verif.Lemmas.Rounded.PoleError
import Verif.Lemmas.Rounded.ButterPoles
import Verif.Lemmas.Rounded.NearReal
import Verif.Props.Rounded.ButterAccuracy
import Verif.Props.Rounded.ButterResponse
import Verif.Spec.Energy
import Verif.Lemmas.Parseval
import Verif.Lemmas.Energy
import Verif.Props.Energy
import Verif.Props.Design.DesignEnergy
import Verif.Lemmas.RoundedStatsMore
import Verif.Props.RoundedStatsMore
import Verif.Lemmas.RoundedLimit
import Verif.Lemmas.RoundedZi
import Verif.Lemmas.RoundedFiltfilt
import Verif.Props.RoundedFiltfilt
import Verif.Lemmas.Iter
import Verif.Lemmas.RoundedSavgol
import Verif.Props.RoundedSavgol
import Verif.Spec.RoundedFft
import Verif.Lemmas.L2
import Verif.Lemmas.RoundedFft
import Verif.Props.RoundedFft
import Verif.Spec.Ripple
import Verif.Lemmas.Rounded.Ripple
import Verif.Lemmas.Rounded.ChebPoles
import Verif.Props.Rounded.ChebAccuracy
import Verif.Lemmas.Rounded.ChebGain
import Verif.Props.Rounded.ChebResponse
import Verif.Props.IeeeFiltfilt
import Verif.Model.IeeeDesign
import Verif.Props.IeeeDesign
import Verif.Props.Rounded.BandAccuracy
import Verif.Props.IeeeButter
import Verif.Props.Design.Cheb2Bands
import Verif.Props.Rounded.Limit
import Verif.Props.IeeeSections
import Verif.Props.StatsRobust
import Verif.Props.ConvolveAlgebra
import Verif.Props.IeeeLimit
import Verif.Props.IeeeSteps
import Verif.Props.StatsRelations
import Verif.Props.Design.Mirror
import Verif.Props.Design.Crossover
import Verif.Props.SavgolSymmetry
import Verif.Props.Scaling
import Verif.Props.SignIeee
import Verif.Props.CombinatoricsRelations
import Verif.Props.Design.Compare
import Verif.Props.Forgetting
import Verif.Props.Design.Forgetting
import Verif.Props.Kernel
import Verif.Props.ExtRelease
import Verif.Props.Spectrum
import Verif.Props.PeakGain
import Verif.Props.Rounded.PolyError
import Verif.Props.Rounded.BandResponse
import Verif.Props.SosExplicit
import Verif.Props.Rounded.EndToEnd
import Verif.Conformance.Special
import Verif.Conformance.Filters
import Verif.Conformance.Convolve
import Verif.Props.SquareIeee
import Verif.Props.Design.RealOutput
import Verif.Props.ResampleShape
import Verif.Props.Rounded.StopResponse
import Verif.Props.Rounded.BandEnergy
import Verif.Props.Rounded.StopAccuracy
import Verif.Props.Rounded.Cheb2Response
import Verif.Props.Rounded.ChebBand
import Verif.Props.Rounded.ChebEndToEnd
import Verif.Props.Rounded.ChebBandResponse
import Verif.Props.Rounded.BandEndToEnd
import Verif.Props.Rounded.ChebStopResponse
import Verif.Props.Rounded.StopEndToEnd
import Verif.Props.KernelError
