import Verif.Py
import Verif.Fourier
import Verif.Numpy
import Verif.NumpyArr
import Verif.NumpyArg
import Verif.Spec
import Verif.Model.FastFFTs
import Verif.Model.Shift
import Verif.Model.Scale
import Verif.Model.Zoom
import Verif.Model.Upsample
import Verif.Model.Correlate
import Verif.Model.Chi2
import Verif.Lemmas.Shift
import Verif.Lemmas.Scale
import Verif.Lemmas.Zoom
import Verif.Lemmas.Upsample
import Verif.Lemmas.Correlate
import Verif.Lemmas.Chi2
import Verif.Lemmas.Chi2Shift
import Verif.Lemmas.Chi2Recover
import Verif.Props.Shift
import Verif.Props.Scale
import Verif.Props.Zoom
import Verif.Props.Upsample
import Verif.Props.Chi2
import Verif.Props.Chi2Shift
import Verif.Props.Chi2Recover
import Verif.Props.Chi2Symm
import Verif.Model.Register
import Verif.Lemmas.Register
import Verif.Lemmas.RegisterFit
import Verif.Props.Register
import Verif.Model.CrossCorr
import Verif.Lemmas.CrossCorr
import Verif.Lemmas.AutoCorr
import Verif.Props.CrossCorr
import Verif.Model.IterZoom
import Verif.Lemmas.IterZoom
import Verif.Props.IterZoom
import Verif.Model.Downsample
import Verif.Props.Downsample
import Verif.Model.Kernel
import Verif.Props.Kernel
import Verif.Model.Convolve
import Verif.Lemmas.Convolve
import Verif.Props.Convolve
import Verif.Model.FitsHeader
import Verif.Props.FitsHeader
import Verif.Model.FitsMatch
import Verif.Props.FitsMatch
import Verif.Lemmas.Sinc
import Verif.Lemmas.Stats
import Verif.Props.ScaleMore
import Verif.Props.ZoomMore
import Verif.Props.Chi2More
import Verif.Props.IterZoomMore
import Verif.Props.RegisterMore
import Verif.Props.CrossCorrMore
import Verif.Props.ConvolveMore
import Verif.Props.KernelMore
import Verif.Model.LeastSq
import Verif.Props.LeastSq
import Verif.Props.IterZoomChi2
import Verif.Lemmas.Fill
import Verif.Props.Fill
import Verif.Props.FillShift
import Verif.Props.FillExamples
import Verif.Props.Chi2Boundary
import Verif.Props.Noise
import Verif.Props.RegisterNoise
import Verif.Props.Alias
import Verif.Props.Recipe
import Verif.Props.ErrorBars
import Verif.Props.Agree
import Verif.Props.RegisterAccuracy
import Verif.Model.Testing
import Verif.Model.TestingMore
import Verif.Props.Testing
import Verif.Model.Heap
import Verif.Props.Heap
import Verif.Props.TestingOffset
import Verif.Props.TestingUpsample
import Verif.Props.TestingFits
import Verif.Model.Inexact
import Verif.Lemmas.Inexact
import Verif.Props.Inexact
import Verif.Model.InexactShift
import Verif.Lemmas.InexactShift
import Verif.Props.InexactShift
import Verif.Model.InexactChi2
import Verif.Lemmas.InexactChi2
import Verif.Props.InexactChi2
import Verif.Model.InexactZoom
import Verif.Lemmas.InexactZoom
import Verif.Props.InexactZoom
import Verif.Props.InexactZoomCases
import Verif.Props.InexactErrors
import Verif.Model.InexactUps
import Verif.Lemmas.InexactUps
import Verif.Props.InexactUps
import Verif.Props.InexactRegister
import Verif.Props.CrossCorrSymm
import Verif.Props.RegisterSymm
import Verif.Props.Transpose
import Verif.Props.CrossCorrNoise
import Verif.Props.TestingMore
import Verif.Model.InexactCC
import Verif.Lemmas.InexactCC
import Verif.Props.InexactCC
import Verif.Props.InexactNoise
import Verif.Model.ConvShared
import Verif.Lemmas.ConvShared
import Verif.Lemmas.ConvSafe
import Verif.Lemmas.ConvRun
import Verif.Props.ConvShared
import Verif.Props.RandomNoise
import Verif.Props.RandomRegister
import Verif.Props.Optimal
import Verif.Props.Converge
import Verif.Model.IntImages
import Verif.Props.IntImages
import Verif.Model.InexactIterZoom
import Verif.Lemmas.IterZoomBound
import Verif.Lemmas.InexactIterZoom
import Verif.Props.IterZoomBound
import Verif.Props.InexactIterZoom
import Verif.Props.InexactRecipe
import Verif.Props.Again
import Verif.Props.RegisterAgain
import Verif.Props.CrossCorrAgain
import Verif.Props.AutoAgain
import Verif.Props.Coverage
import Verif.Props.Likelihood
import Verif.Cases.Basic
import Verif.Cases.Chi2
import Verif.Cases.Star
import Verif.Cases.Recover
import Verif.Cases.Register
import Verif.Cases.IterZoom
import Verif.Cases.Kernel
import Verif.Cases.Shift
import Verif.Cases.Misc
import Verif.Props.Mirror
import Verif.Props.MirrorCC
import Verif.Props.MirrorEven
import Verif.Props.Gauss
import Verif.Props.Gauss2
import Verif.Lemmas.StarCorr
import Verif.Props.StarRegister
import Verif.Props.StarChi2
import Verif.Props.StarNoise
import Verif.Props.StarTrue
import Verif.Props.Stack
import Verif.Props.RegisterAny
import Verif.Props.BadPixels
import Verif.Props.HotAny
import Verif.Props.MaskErr
import Verif.Props.Smoothing
import Verif.Props.Cases
import Verif.Props.LowRes
import Verif.Props.Resample
import Verif.Props.UpRegister
import Verif.Props.ConvAlgebra
import Verif.Props.MirrorResample
import Verif.Props.StarNoiseRegister
import Verif.Props.StarNoiseAnswer
import Verif.Props.StarNoiseTrue
