import Verif.Lemmas.Bank
import Verif.Lemmas.Blocks
import Verif.Lemmas.CholNear
import Verif.Lemmas.Cholesky
import Verif.Lemmas.Control
import Verif.Lemmas.DetIneq
import Verif.Lemmas.Gauss
import Verif.Lemmas.GaussInt
import Verif.Lemmas.Heap
import Verif.Lemmas.Kalman
import Verif.Lemmas.KalmanShapes
import Verif.Lemmas.KalmanShapesMore
import Verif.Lemmas.Limits
import Verif.Lemmas.Mat
import Verif.Lemmas.NdArray
import Verif.Lemmas.NormalLaw
import Verif.Lemmas.OtherShapes
import Verif.Lemmas.Prob
import Verif.Lemmas.QR
import Verif.Lemmas.Rounding
import Verif.Lemmas.Scalar1
import Verif.Lemmas.SigmaPoints
import Verif.Lemmas.Sim
import Verif.Lemmas.SmallSteps
import Verif.Lemmas.Smooth
import Verif.Lemmas.Steady
import Verif.Lemmas.WhiteNoise
import Verif.Model.Arrays
import Verif.Model.Bank
import Verif.Model.BankClasses
import Verif.Model.Basic
import Verif.Model.Cubature
import Verif.Model.Curves
import Verif.Model.DiscreteBayes
import Verif.Model.Discretization
import Verif.Model.EKF
import Verif.Model.EnKF
import Verif.Model.FadingKF
import Verif.Model.FixedLag
import Verif.Model.GH
import Verif.Model.HInfinity
import Verif.Model.Heap
import Verif.Model.Helpers
import Verif.Model.IMM
import Verif.Model.InformationFilter
import Verif.Model.IntArrays
import Verif.Model.KalmanFilter
import Verif.Model.KalmanFuncShapes
import Verif.Model.KalmanFuncs
import Verif.Model.KalmanOps
import Verif.Model.KalmanShapes
import Verif.Model.KalmanShapesMore
import Verif.Model.MMAE
import Verif.Model.NdArray
import Verif.Model.OtherShapes
import Verif.Model.Plots
import Verif.Model.PolyFilters
import Verif.Model.Printing
import Verif.Model.Reads
import Verif.Model.Resampling
import Verif.Model.Saver
import Verif.Model.SaverArray
import Verif.Model.SaverReads
import Verif.Model.SigmaFilterShapes
import Verif.Model.SigmaPoints
import Verif.Model.SigmaShapes
import Verif.Model.SquareRoot
import Verif.Model.Stats
import Verif.Model.UKF
import Verif.Props.Aliasing
import Verif.Props.BankClasses
import Verif.Props.BankIdentical
import Verif.Props.BankOrder
import Verif.Props.BankSwitching
import Verif.Props.BanksNearby
import Verif.Props.Causality
import Verif.Props.CombinedReadings
import Verif.Props.CrossModule
import Verif.Props.Cubature
import Verif.Props.CubatureTwin
import Verif.Props.Curves
import Verif.Props.DiscreteBayes
import Verif.Props.DiscreteBayesForgets
import Verif.Props.DiscreteBayesMirror
import Verif.Props.DiscreteBayesRun
import Verif.Props.Discretization
import Verif.Props.EKF
import Verif.Props.EKFOptimal
import Verif.Props.EKFSmallNoise
import Verif.Props.EkfNearby
import Verif.Props.Ellipse
import Verif.Props.EnKF
import Verif.Props.EnKFLimit
import Verif.Props.EnsembleNearby
import Verif.Props.EnsembleSpan
import Verif.Props.Exceptions
import Verif.Props.ExpectedMeasurement
import Verif.Props.Fading
import Verif.Props.FadingKF
import Verif.Props.FadingLeastSquares
import Verif.Props.FilterBooks
import Verif.Props.FixedLag
import Verif.Props.GH
import Verif.Props.GHGains
import Verif.Props.GHK
import Verif.Props.GHStability
import Verif.Props.HInfinity
import Verif.Props.HInfinityGuarantee
import Verif.Props.Helpers
import Verif.Props.IMM
import Verif.Props.InfoNearby
import Verif.Props.InformationFilter
import Verif.Props.InformationStart
import Verif.Props.IntArrays
import Verif.Props.KalmanAffine
import Verif.Props.KalmanBasic
import Verif.Props.KalmanBatch
import Verif.Props.KalmanBayes
import Verif.Props.KalmanChiSquare
import Verif.Props.KalmanConsistency
import Verif.Props.KalmanCoverage
import Verif.Props.KalmanDecouple
import Verif.Props.KalmanEvidence
import Verif.Props.KalmanFewer
import Verif.Props.KalmanForgets
import Verif.Props.KalmanFuncShapes
import Verif.Props.KalmanInnovations
import Verif.Props.KalmanMonotone
import Verif.Props.KalmanNearby
import Verif.Props.KalmanOutages
import Verif.Props.KalmanPerfect
import Verif.Props.KalmanPinv
import Verif.Props.KalmanPolyFit
import Verif.Props.KalmanPreviews
import Verif.Props.KalmanRatios
import Verif.Props.KalmanReachable
import Verif.Props.KalmanRobust
import Verif.Props.KalmanRounding
import Verif.Props.KalmanSequential
import Verif.Props.KalmanSettles
import Verif.Props.KalmanShapes
import Verif.Props.KalmanShapesMore
import Verif.Props.KalmanSmooth
import Verif.Props.KalmanSmoothLaw
import Verif.Props.KalmanSmoothLinear
import Verif.Props.KalmanStochastic
import Verif.Props.KalmanUnits
import Verif.Props.KalmanUnseen
import Verif.Props.KalmanWorth
import Verif.Props.KalmanWrongStart
import Verif.Props.Kinematic
import Verif.Props.KinematicSettles
import Verif.Props.LeastSquares
import Verif.Props.MMAE
import Verif.Props.MMAEPosterior
import Verif.Props.MMAERightModel
import Verif.Props.MatrixDimensions
import Verif.Props.MissingEverywhere
import Verif.Props.NonlinearRuns
import Verif.Props.OtherNearby
import Verif.Props.OtherShapes
import Verif.Props.OtherUnits
import Verif.Props.Pieces
import Verif.Props.Plots
import Verif.Props.Printing
import Verif.Props.Refusals
import Verif.Props.Renumbering
import Verif.Props.Resampling
import Verif.Props.ResamplingNoise
import Verif.Props.ResamplingUnbiased
import Verif.Props.Resume
import Verif.Props.ResumeBank
import Verif.Props.RungeKutta
import Verif.Props.RungeKuttaOrder
import Verif.Props.Saver
import Verif.Props.SaverArray
import Verif.Props.SaverReads
import Verif.Props.SigmaFilterShapes
import Verif.Props.SigmaPoints
import Verif.Props.SigmaShapes
import Verif.Props.SigmaUnits
import Verif.Props.SimpleRounding
import Verif.Props.SmoothParts
import Verif.Props.SmootherNearby
import Verif.Props.SquareRoot
import Verif.Props.Stats
import Verif.Props.UKF
import Verif.Props.UKFCoordinates
import Verif.Props.UKFSmallNoise
import Verif.Props.UKFSmooth
import Verif.Props.UTQuadratic
import Verif.Props.UkfNearby
import Verif.Props.VanLoan
import Verif.Spec.BankClasses
import Verif.Spec.Cholesky
import Verif.Spec.Gauss
import Verif.Spec.GaussWorld
import Verif.Spec.Heap
import Verif.Spec.KalmanWorth
import Verif.Spec.LeastSquares
import Verif.Spec.LinAlg
import Verif.Spec.LinearWorld
import Verif.Spec.Mixture
import Verif.Spec.Moments
import Verif.Spec.Nearby
import Verif.Spec.NearbyBanks
import Verif.Spec.NumberArrays
import Verif.Spec.OtherShapes
import Verif.Spec.Prob
import Verif.Spec.Resampling
import Verif.Spec.RoundedUpdates
import Verif.Spec.Rounding
import Verif.Spec.Shapes
import Verif.Spec.SigmaFilterShapes
import Verif.Spec.SigmaShapes
import Verif.Spec.Smoothing
