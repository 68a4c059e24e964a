import Verif.Props.CostDecoder
import Verif.Props.Costs
import Verif.Props.WrappedLoss
import Verif.Props.Dual
import Verif.Props.DualUnlabelled
import Verif.Model.Dirac
import Verif.Props.WrapProblem
import Verif.Props.Samplers
import Verif.Props.ImpSamp
import Verif.Props.InitialDual
import Verif.Props.DualState
import Verif.Props.OptCond
import Verif.Props.OptCondFaults
import Verif.Props.Solve
import Verif.Props.Optimizers
import Verif.Props.HybridRefused
import Verif.Props.Result
import Verif.Props.Losses
import Verif.Props.NanRadius
import Verif.Props.Template
import Verif.Props.Newsvendor
import Verif.Props.LinReg
import Verif.Props.Logistic
import Verif.Props.Portfolio
import Verif.Lemmas.Minimax
import Verif.Lemmas.Cone
import Verif.Props.Polytope
import Verif.Model.Estimators
import Verif.Spec.Estimators
import Verif.Lemmas.Estimators
import Verif.Props.Routes
import Verif.Props.Classifier
import Verif.Props.Estimators
import Verif.Props.Scores
import Verif.Props.Objective
import Verif.Model.Problems
import Verif.Model.RhoTuners
import Verif.Spec.RhoTuners
import Verif.Props.Problems
import Verif.Props.RhoTuners
import Verif.Props.PortfolioTuner
import Verif.Model.Fit
import Verif.Spec.Fit
import Verif.Lemmas.Fit
import Verif.Lemmas.Shapes
import Verif.Lemmas.FitEnv
import Verif.Props.Features
import Verif.Props.Convergence
import Verif.Props.OnlineRegret
import Verif.Props.Seeded
import Verif.Props.PortfolioArgs
import Verif.Props.FreshSamples
import Verif.Props.FreshLogistic
import Verif.Props.FreshApplies
import Verif.Props.Presentation
import Verif.Props.PresentationFits
import Verif.Props.PresentationMore
import Verif.Model.Rounding
import Verif.Model.Precision
import Verif.Props.Rounding
import Verif.Props.WorstCase
import Verif.Props.Subgradient
import Verif.Props.Fit
import Verif.Spec.Objective
import Verif.Lemmas.Objective
import Verif.Props.EstObjective
import Verif.Props.Settings
import Verif.Model.Lifecycle
import Verif.Spec.Lifecycle
import Verif.Props.Lifecycle
import Verif.Props.NewsvendorExact
import Verif.Props.Dedicated
import Verif.Spec.Population
import Verif.Props.StrongDuality
import Verif.Props.Consistency
import Verif.Props.SampleBias
import Verif.Props.Adversary
import Verif.Props.ImpConsistency
import Verif.Props.ImpConsistencyLabels
import Verif.Props.WitSampling
import Verif.Props.WitSolve
import Verif.Props.WitSolvers
import Verif.Props.WitFits
import Verif.Props.WitLimits
import Verif.Props.WitLifecycle
import Verif.Props.LastStep
import Verif.Props.LateRadius
import Verif.Props.Threshold
import Verif.Props.EqualWeights
import Verif.Props.DataErrors
import Verif.Props.Precision
import Verif.Props.Trajectory
import Verif.Props.Session
import Verif.Props.SessionFits
import Verif.Props.FitRaises
import Verif.Props.Reuse
import Verif.Props.Refit
import Verif.Props.CostNoise
import Verif.Props.Sweep
import Verif.Props.Schedules
import Verif.Props.Batches
import Verif.Props.Literals
import Verif.Props.Stability
import Verif.Props.SampleSize
import Verif.Props.Hybrid
import Verif.Props.Regret
import Verif.Props.Store
import Verif.Props.StoreAttrs
import Verif.Props.WitStore
import Verif.Props.ConsistencyUnlabelled
import Verif.Props.LaplaceForward
import Verif.Spec.Draws
import Verif.Lemmas.MinLimit
import Verif.Lemmas.MixPlan
import Verif.Props.MoreData
import Verif.Props.MoreDataLogistic
import Verif.Props.MoreDataFits
import Verif.Props.MoreDataPortfolio
import Verif.Props.NewsvendorRegret
import Verif.Props.OneSolution
import Verif.Props.OnePortfolio
import Verif.Props.Distance
import Verif.Props.WideLoss
import Verif.Props.WitMoreData
import Verif.Props.SmallTemperature
import Verif.Props.SmallTemperatureUnlabelled
import Verif.Props.SpatialOption
import Verif.Props.BallWorstCase
import Verif.Props.RegularisedWorstCase
import Verif.Props.RegularisedWorstCaseUnlabelled
import Verif.Props.UniformWorstCase
import Verif.Props.LaplaceWorstCase
import Verif.Props.LabelNoiseForward
import Verif.Props.LaplaceLabelNoise
import Verif.Model.TunerGradients
import Verif.Props.TunerGradients
import Verif.Props.RegularisedLabelNoise
import Verif.Props.RegularisedLaplace
import Verif.Props.SampleSizeNoise
