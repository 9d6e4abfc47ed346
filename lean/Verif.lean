import Verif.Model.Basic
import Verif.Model.Ekf
import Verif.Model.Linear
import Verif.Lemmas.LinAlg
import Verif.Lemmas.Ekf
import Verif.Lemmas.Info
import Verif.Props.Ekf
import Verif.Model.Iekf
import Verif.Lemmas.Iekf
import Verif.Props.Iekf
import Verif.Model.Sigma
import Verif.Lemmas.Sigma
import Verif.Props.Sigma
import Verif.Lemmas.Gauss
import Verif.Props.SigmaGauss
import Verif.Model.Imm
import Verif.Lemmas.Imm
import Verif.Props.Imm
import Verif.Model.RunFilter
import Verif.Lemmas.RunFilter
import Verif.Props.RunFilter
import Verif.Model.Composite
import Verif.Lemmas.Composite
import Verif.Props.Composite
import Verif.Model.States
import Verif.Props.States
import Verif.Model.Problem
import Verif.Lemmas.Problem
import Verif.Lemmas.Assembly
import Verif.Props.Problem
import Verif.Props.Assembly
import Verif.Props.GaussNewton
import Verif.Props.LinearProblem
import Verif.Model.Residuals
import Verif.Model.Mixture
import Verif.Props.Residuals
import Verif.Lemmas.Mixture
import Verif.Props.Mixture
import Verif.Props.MixtureGrad
import Verif.Model.Stamps
import Verif.Props.Stamps
import Verif.Model.BatchEst
import Verif.Props.BatchEst
import Verif.Props.Unobservable
import Verif.Props.BatchGaps
import Verif.Model.Interp
import Verif.Props.Interp
import Verif.Model.VanLoan
import Verif.Props.VanLoan
import Verif.Model.FiniteDiff
import Verif.Props.FiniteDiff
import Verif.Model.Results
import Verif.Props.Results
import Verif.Model.Datagen
import Verif.Lemmas.Datagen
import Verif.Props.Datagen
import Verif.Model.Lie
import Verif.Model.Bspline
import Verif.Lemmas.Lie
import Verif.Lemmas.Bspline
import Verif.Props.Bspline
import Verif.Model.Camera
import Verif.Props.Camera
import Verif.Model.Imu
import Verif.Lemmas.Imu
import Verif.Lemmas.Dexp
import Verif.Props.Imu
import Verif.Props.ImuJac
import Verif.Model.Group
import Verif.Lemmas.Group
import Verif.Props.Group
import Verif.Model.Preint
import Verif.Props.Preint
import Verif.Props.PreintLin
import Verif.Props.PreintImu
import Verif.Props.PreintImuJac
import Verif.Props.PreintImuBias
import Verif.Model.Integrators
import Verif.Model.Measurements
import Verif.Model.Slam
import Verif.Lemmas.Grad
import Verif.Lemmas.Measurements
import Verif.Props.Integrators
import Verif.Props.Measurements
import Verif.Props.MeasurementsPair
import Verif.Props.MeasurementsInv
import Verif.Props.Slam
import Verif.Props.Exact
import Verif.Props.MeasurementValues
import Verif.Model.Heap
import Verif.Lemmas.Heap
import Verif.Lemmas.HeapSwc
import Verif.Lemmas.HeapPlus
import Verif.Props.HeapCopy
import Verif.Props.HeapCtor
import Verif.Model.HeapEkf
import Verif.Lemmas.HeapEkf
import Verif.Lemmas.HeapAny
import Verif.Props.HeapEkf
import Verif.Props.HeapAny
import Verif.Props.HeapModels
import Verif.Props.HeapRun
import Verif.Props.FilterBatch
import Verif.Lemmas.ProbSim
import Verif.Lemmas.Marginal
import Verif.Props.LinearTotal
import Verif.Props.BatchLinear
import Verif.Props.BatchLinear2
import Verif.Props.BatchMarginal
import Verif.Props.BatchFilter
import Verif.Props.BatchObjective
import Verif.Props.BatchEqualsFilter
import Verif.Lemmas.FilterSim
import Verif.Props.Equivariance
import Verif.Props.EquivarianceLin
import Verif.Props.WorldFrame
import Verif.Model.RunFilters
import Verif.Props.AllFilters
import Verif.Props.NoiseFree
import Verif.Model.CompositeFilter
import Verif.Props.Decouple
import Verif.Props.ImmSym
import Verif.Lemmas.ProbOrder
import Verif.Lemmas.ProbOrder2
import Verif.Props.Order
import Verif.Model.MixResults
import Verif.Props.MixResults
import Verif.Props.RoundTrip
import Verif.Model.Datasets
import Verif.Props.Datasets
import Verif.Lemmas.Still
import Verif.Props.PerfectBatch
import Verif.Props.PerfectBatch2
import Verif.Props.PerfectFilter
import Verif.Props.IekfGaussNewton
import Verif.Lemmas.Moments
import Verif.Props.Honest
import Verif.Props.Best
import Verif.Model.ProblemObj
import Verif.Model.Plot
import Verif.Model.PosePlot
import Verif.Model.Alignment
import Verif.Lemmas.ProblemObj
import Verif.Lemmas.ProbHistory
import Verif.Props.ProblemObj
import Verif.Props.ProblemObj2
import Verif.Props.ProblemObj3
import Verif.Props.PoseTrack
import Verif.Props.MoreData
import Verif.Props.ImuTrack
import Verif.Props.Plot
import Verif.Props.PosePlot
import Verif.Props.Alignment
import Verif.Lemmas.GaussSpace
import Verif.Props.GaussNoise
import Verif.Props.FalseAlarm
import Verif.Props.MonteCarlo
import Verif.Lemmas.GaussMarkov
import Verif.Props.Smoother
import Verif.Lemmas.GaussDensity
import Verif.Props.Bayes
import Verif.Props.Unlearned
import Verif.Props.UnobservableImu
import Verif.Props.Offline
import Verif.Props.LogLinear
import Verif.Props.LeastSquaresLaw
import Verif.Props.BatchCostLaw
import Verif.Props.Innovations
import Verif.Props.InnovationsBatch
import Verif.Props.Energy
import Verif.Props.Causal
import Verif.Props.Units
import Verif.Props.Information
import Verif.Model.CompositeInput
import Verif.Lemmas.Keyed
import Verif.Props.CompositeInput
import Verif.Lemmas.ProbRot
import Verif.Props.BatchUnits
import Verif.Lemmas.RobustAlg
import Verif.Lemmas.Robust
import Verif.Lemmas.RobustLoop
import Verif.Props.Outliers
import Verif.Props.Hold
import Verif.Lemmas.Cholesky
import Verif.Props.Ratios
import Verif.Lemmas.ProbScale
import Verif.Props.RatiosBatch
import Verif.Props.Attach
import Verif.Props.Chain
import Verif.Props.Damping
import Verif.Props.Local
import Verif.Props.LinearRate
import Verif.Props.LmLocal
